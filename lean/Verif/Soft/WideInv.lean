import Verif.Soft.FixInv
import Verif.Soft.WideModel
import Verif.Soft.Rows
/-! # Software threads with `row_next` repaired, every pool size: the stack -/
namespace Verif.Soft

theorem cellIdx_ne_zero {count t p : Nat} : cellIdx count t p ≠ 0 := by rw [cellIdx_eq]; omega

theorem rowAt_ne_zero {count p : Nat} : rowAt count p ≠ 0 := by rw [rowAt]; omega

/-- The bit of a thread at a level. -/
def bitOf (count : Nat) (mem : Nat → U32) (t p : Nat) : Bool := (mem (cellIdx count t p)).getLsbD (t % 32)

theorem pending_bitOf {count : Nat} {s : State} {t p : Nat} : Pending count s t p ↔ bitOf count s.mem t p = true := by
  rw [Pending, pendingBit_eq, and_bit_ne (Nat.mod_lt _ (by omega))]; rfl

/-- Facts about a scheduler loop. -/
def RowPc.OkW (count : Nat) (r : Row) : RowPc → Prop
  | .load thr => thr % 32 = 0 ∧ thr < count ∧ r.ptr = rowAt count r.priority + thr / 32
  | .bits thr _ bit => thr < count ∧ bit = 1#32 <<< (thr % 32) ∧ r.ptr = rowAt count r.priority + thr / 32
  | .call thr _ bit _ => thr < count ∧ bit = 1#32 <<< (thr % 32) ∧ r.ptr = rowAt count r.priority + thr / 32
  | .next => True

/-- Facts about a call in progress, above the calls `st`. -/
def Frame.OkW (count : Nat) (st : List Frame) : Frame → Prop
  | .req thr .load => thr < count
  | .req thr (.cell p) => thr < count ∧ p < 27
  | .req thr (.header p) => thr < count ∧ p < 27
  | .start => True
  | .row r pc => 0 < count ∧ r.prev = running st ∧ r.prev < r.priority ∧ r.priority ≤ 27 ∧ pc.OkW count r
  | .clear thr p => thr < count ∧ ∀ q, p = some q → q < 27
  | .plain thr _ => thr < count

/-- Facts about the stack. -/
def StackOkW (count : Nat) : List Frame → Prop
  | [] => True
  | f :: st => f.OkW count st ∧ StackOkW count st

theorem running_leW {count : Nat} : ∀ {st : List Frame}, StackOkW count st → running st ≤ 27
  | [], _ => by simp [running]
  | f :: st, h => by
    have ih := running_leW h.2
    cases f <;> simp only [running, Frame.level, Option.getD] <;> first | exact ih | exact h.1.2.2.2.1

theorem level_leW {count : Nat} : ∀ {st : List Frame}, StackOkW count st → ∀ f ∈ st, ∀ p, f.level = some p → p ≤ running st
  | f :: st, h, g, hg, p, hp => by
    rcases List.mem_cons.1 hg with rfl | hg
    · simp [running, hp]
    · have ih := level_leW h.2 g hg p hp
      cases f with
      | row r pc =>
        simp only [running, Frame.level, Option.getD]
        have h1 := h.1.2.1
        have h2 := h.1.2.2.1
        omega
      | _ => exact ih

/-- The invariant of the stack and the header. -/
structure InvAW (count : Nat) (s : State) : Prop where
  cur : recorded s = running s.stack
  ok : StackOkW count s.stack
  pr : ∀ t, s.prio t < 27
  hb : ∀ i, i < 27 → (s.mem 0).getLsbD i = true → 0 < count

theorem init_invAW (count : Nat) {prio : Nat → Nat} (h : ∀ t, prio t < 27) : InvAW count (init prio) := by
  constructor
  · simp [recorded, init, running]
  · trivial
  · exact h
  · intro i _; simp [init]

theorem advance_okW {count thr : Nat} {r : Row} {cell : U32} {st : List Frame} (h0 : 0 < count) (h1 : r.prev = running st)
    (h2 : r.prev < r.priority) (h3 : r.priority ≤ 27) (ht : thr < count) (hp : r.ptr = rowAt count r.priority + thr / 32) :
    (advance count r thr cell (1#32 <<< (thr % 32))).OkW count st ∧ (advance count r thr cell (1#32 <<< (thr % 32))).level = some r.priority := by
  rw [advance_wide]
  split
  · exact ⟨⟨h0, h1, h2, h3, trivial⟩, rfl⟩
  · split
    · refine ⟨⟨h0, h1, h2, h3, ?_, ?_, ?_⟩, rfl⟩
      · omega
      · omega
      · simp only [hp]; omega
    · refine ⟨⟨h0, h1, h2, h3, ?_, rfl, ?_⟩, rfl⟩
      · omega
      · rw [hp]; omega

theorem frameStepW_eq {count : Nat} {s : State} {rest : List Frame} {f : Frame} (h : ∀ r, f ≠ .row r .next) :
    frameStepW count s rest f = frameStep count s rest f := by
  cases f with
  | row r pc =>
    cases pc with
    | next => exact absurd rfl (h r)
    | _ => rfl
  | _ => rfl

theorem stepW_eq {count : Nat} {s : State} {a : Act} (h : a ≠ .step) : stepW count s a = step count s a := by
  cases a with
  | step => exact absurd rfl h
  | _ => rfl

/-- `row_next`, repaired, as its outcome. -/
theorem next_specW {count : Nat} {s s' : State} {r : Row} {rest : List Frame} (a : InvAW count s)
    (hst : s.stack = .row r .next :: rest) (h : frameStepW count s rest (.row r .next) = some s') :
    (s' = { s with mem := upd s.mem 0 (setPriority (s.mem 0) r.prev), stack := rest } ∧
      ∀ i, r.prev ≤ i → i < r.priority → (s.mem 0).getLsbD i = false) ∨
    ∃ new next, s' = { s with mem := upd s.mem 0 new, stack := .row ⟨rowAt count next, next, r.prev⟩ (.load 0) :: rest } ∧
      r.prev < next ∧ next ≤ r.priority ∧ (∀ i, next ≤ i → i < r.priority → (s.mem 0).getLsbD i = false) ∧
      (new >>> 27).toNat = next ∧ ∀ i, i < 27 → new.getLsbD i = ((s.mem 0).getLsbD i && decide (i ≠ next - 1)) := by
  have j := a.ok
  rw [hst] at j
  obtain ⟨⟨k1, k2, k3, k4, k6⟩, j2⟩ := j
  simp only [frameStepW, Option.some.injEq] at h
  have sp := findPriority_spec (s.mem 0) r.prev r.priority (by omega) (by omega)
  cases hf : findPriority (s.mem 0) r.prev r.priority with
  | mk new next =>
    rw [hf] at sp h
    dsimp only at h
    cases new with
    | none =>
      simp only at sp
      left
      subst h
      simp only [sp.1, ↓reduceIte, Option.getD]
      exact ⟨trivial, sp.2⟩
    | some new =>
      simp only at sp
      obtain ⟨a1, a2, a3, a4, a5, a6⟩ := sp
      right
      refine ⟨new, next, ?_, a1, a2, a4, a5, a6⟩
      have hne : next ≠ r.prev := by omega
      subst h
      simp only [hne, ↓reduceIte, Option.getD]
      rfl

theorem frameStepW_invA {count : Nat} {s s' : State} {f : Frame} {rest : List Frame} (i : InvAW count s)
    (hst : s.stack = f :: rest) (h : frameStepW count s rest f = some s') : InvAW count s' := by
  by_cases hn : ∃ r, f = .row r .next
  · obtain ⟨r, rfl⟩ := hn
    have sp := next_specW i hst h
    obtain ⟨i1, i2, i3, i4⟩ := i
    rw [hst] at i1 i2
    obtain ⟨⟨k1, k2, k3, k4, k6⟩, j2⟩ := i2
    rcases sp with ⟨rfl, sp⟩ | ⟨new, next, rfl, a1, a2, a4, a5, a6⟩
    · refine ⟨?_, j2, i3, fun _ _ _ => k1⟩
      simp only [recorded, upd, ↓reduceIte]
      rw [cur_setPriority (by omega), k2]
    · refine ⟨?_, ⟨⟨k1, k2, a1, ?_, rfl, k1, rfl⟩, j2⟩, i3, fun _ _ _ => k1⟩
      · simp only [recorded, upd, ↓reduceIte, a5, running, Frame.level, Option.getD]
      · simp only; omega
  · rw [frameStepW_eq (fun r e => hn ⟨r, e⟩)] at h
    obtain ⟨i1, i2, i3, i4⟩ := i
    rw [hst] at i1 i2
    obtain ⟨j1, j2⟩ := i2
    cases f with
    | req thr pc =>
      cases pc with
      | load =>
        simp only [frameStep, Option.some.injEq] at h
        subst h
        exact ⟨i1, ⟨⟨j1, i3 thr⟩, j2⟩, i3, i4⟩
      | cell p =>
        simp only [frameStep] at h
        split at h
        · simp only [Option.some.injEq] at h
          have hi : cellIdx count thr p ≠ 0 := cellIdx_ne_zero
          subst h
          refine ⟨?_, ?_, i3, ?_⟩
          · simp only [recorded, upd]
            rw [if_neg (Ne.symm hi)]
            refine Eq.trans i1 ?_
            split <;> rfl
          · dsimp only
            split
            · exact ⟨j1, j2⟩
            · exact j2
          · intro k hk
            simp only [upd, if_neg (Ne.symm hi)]
            exact i4 k hk
        · simp at h
      | header p =>
        simp only [frameStep, Option.some.injEq] at h
        subst h
        refine ⟨?_, ?_, i3, ?_⟩
        · simp only [recorded, upd, ↓reduceIte]
          rw [cur_or_bit j1.2]
          refine Eq.trans i1 ?_
          split <;> rfl
        · dsimp only
          split
          · exact ⟨trivial, j2⟩
          · exact j2
        · intro k hk _
          have := j1.1
          omega
    | start =>
      simp only [frameStep] at h
      have hrun := running_leW j2
      have hcur : (s.mem 0 >>> levels).toNat = running rest := i1
      rw [hcur] at h
      have sp := findPriority_spec (s.mem 0) (running rest) 27 hrun (by omega)
      rw [show levels = 27 from rfl] at h
      split at h
      · simp only [Option.some.injEq] at h
        subst h
        exact ⟨i1, j2, i3, i4⟩
      · rename_i new p hf
        rw [hf] at sp
        obtain ⟨a1, a2, a3, a4, a5, a6⟩ := sp
        simp only [Option.some.injEq] at h
        subst h
        have h0 := i4 _ (by omega) a3
        refine ⟨?_, ⟨⟨h0, rfl, a1, a2, rfl, h0, rfl⟩, j2⟩, i3, ?_⟩
        · simp only [recorded, upd, ↓reduceIte, a5, running, Frame.level, Option.getD]
        · intro k hk _; exact h0
    | row r pc =>
      obtain ⟨k1, k2, k3, k4, k6⟩ := j1
      cases pc with
      | load thr =>
        obtain ⟨l1, l2, l3⟩ := k6
        simp only [frameStep] at h
        split at h
        · split at h
          · split at h
            · simp only [Option.some.injEq] at h
              subst h
              refine ⟨?_, ?_, i3, i4⟩
              · dsimp only
                refine Eq.trans i1 ?_
                split <;> rfl
              · dsimp only
                split
                · exact ⟨⟨k1, k2, k3, k4, trivial⟩, j2⟩
                · rename_i hge
                  simp only [colBits, show (1 <<< 5 : Nat) = 32 from rfl] at hge ⊢
                  refine ⟨⟨k1, k2, k3, k4, ?_, ?_, ?_⟩, j2⟩
                  · omega
                  · omega
                  · simp only [l3]; omega
            · simp at h
          · simp only [Option.some.injEq] at h
            subst h
            refine ⟨i1, ⟨⟨k1, k2, k3, k4, l2, ?_, l3⟩, j2⟩, i3, i4⟩
            rw [l1]; rfl
        · simp at h
      | bits thr cell bit =>
        obtain ⟨l1, l2, l3⟩ := k6
        subst l2
        simp only [frameStep] at h
        split at h
        · split at h
          · simp only [Option.some.injEq] at h
            have hi : r.ptr ≠ 0 := by
              have := @rowAt_ne_zero count r.priority
              omega
            subst h
            refine ⟨?_, ⟨⟨k1, k2, k3, k4, l1, rfl, l3⟩, j2⟩, i3, ?_⟩
            · simp only [recorded, upd]
              rw [if_neg (Ne.symm hi)]
              exact i1
            · intro k hk
              simp only [upd, if_neg (Ne.symm hi)]
              exact i4 k hk
          · simp at h
        · simp only [Option.some.injEq] at h
          subst h
          have ha := advance_okW (cell := cell) k1 k2 k3 k4 l1 l3
          refine ⟨?_, ⟨ha.1, j2⟩, i3, i4⟩
          simp only [running, ha.2, Option.getD]
          exact i1
      | call thr cell bit c =>
        obtain ⟨l1, l2, l3⟩ := k6
        subst l2
        have ha := advance_okW (cell := cell) k1 k2 k3 k4 l1 l3
        simp only [frameStep] at h
        split at h
        · simp only [Option.some.injEq] at h
          subst h
          exact ⟨i1, ⟨⟨k1, k2, k3, k4, l1, rfl, l3⟩, j2⟩, i3, i4⟩
        · simp only [Option.some.injEq] at h
          subst h
          refine ⟨?_, ⟨ha.1, j2⟩, i3, i4⟩
          simp only [running, ha.2, Option.getD]
          exact i1
      | next => exact absurd ⟨r, rfl⟩ hn
    | clear thr p =>
      cases p with
      | none =>
        simp only [frameStep, Option.some.injEq] at h
        subst h
        refine ⟨i1, ⟨⟨j1.1, ?_⟩, j2⟩, i3, i4⟩
        intro q hq; rw [← Option.some.inj hq]; exact i3 thr
      | some p =>
        simp only [frameStep] at h
        split at h
        · have hi : cellIdx count thr p ≠ 0 := cellIdx_ne_zero
          simp only [Option.some.injEq] at h
          subst h
          refine ⟨?_, j2, i3, ?_⟩
          · simp only [recorded, upd]
            rw [if_neg (Ne.symm hi)]
            exact i1
          · intro k hk
            simp only [upd, if_neg (Ne.symm hi)]
            exact i4 k hk
        · simp at h
    | plain thr c =>
      simp only [frameStep] at h
      split at h
      · simp only [Option.some.injEq] at h
        subst h
        exact ⟨i1, ⟨j1, j2⟩, i3, i4⟩
      · simp only [Option.some.injEq] at h
        subst h
        exact ⟨i1, j2, i3, i4⟩

theorem ret_okW {count : Nat} {st : List Frame} (h : StackOkW count st) : StackOkW count (ret st) := by
  unfold ret
  split
  · exact ⟨h.1, h.2⟩
  · exact ⟨h.1, h.2⟩
  · exact h

theorem stepW_invA {count : Nat} {s s' : State} {a : Act} (i : InvAW count s) (h : stepW count s a = some s') : InvAW count s' := by
  cases a <;> simp only [stepW, step] at h
  case step =>
    split at h
    · simp only [Option.some.injEq] at h; exact h ▸ i
    · rename_i f rest hst; exact frameStepW_invA i hst h
  case ret =>
    simp only [Option.some.injEq] at h
    subst h
    exact ⟨by rw [ret_level]; exact i.cur, ret_okW i.ok, i.pr, i.hb⟩
  case setPrio =>
    split at h
    · simp only [Option.some.injEq] at h
      subst h
      refine ⟨i.cur, i.ok, ?_, i.hb⟩
      intro t
      simp only [upd]
      split
      · assumption
      · exact i.pr t
    · simp at h
  all_goals
    simp only [Option.some.injEq] at h
    try split at h
    all_goals subst h
    all_goals first
      | exact i
      | exact ⟨i.cur, ⟨by first | assumption | trivial | exact ⟨by assumption, by simp⟩, i.ok⟩, i.pr, i.hb⟩

/-- No access is out of bounds, and no index overflows. -/
theorem stepW_some {count : Nat} (hc : count ≤ 65504) {s : State} {a : Act} (i : InvAW count s) (ha : ∀ t p, a = .setPrio t p → p < 27) :
    ∃ s', stepW count s a = some s' := by
  cases a with
  | step =>
    cases hst : s.stack with
    | nil => simp only [stepW, hst]; exact ⟨_, rfl⟩
    | cons f rest =>
      simp only [stepW, hst]
      have j1 := i.ok
      rw [hst] at j1
      have j1 := j1.1
      cases f with
      | req thr pc =>
        cases pc with
        | load => exact ⟨_, rfl⟩
        | cell p => simp only [frameStepW, frameStep, cellIdx_lt j1.1 j1.2, ↓reduceIte]; exact ⟨_, rfl⟩
        | header p => exact ⟨_, rfl⟩
      | start => simp only [frameStepW, frameStep]; split <;> exact ⟨_, rfl⟩
      | row r pc =>
        obtain ⟨k1, k2, k3, k4, k6⟩ := j1
        cases pc with
        | load thr =>
          obtain ⟨l1, l2, l3⟩ := k6
          have hp : r.ptr < pendingSize count := by rw [l3]; exact ptr_lt (by omega) k4 l2
          simp only [frameStepW, frameStep, hp, ↓reduceIte]
          split
          · have : thr + 1 <<< colBits < 65536 := by
              simp only [colBits, show (1 <<< 5 : Nat) = 32 from rfl]; omega
            rw [if_pos this]; exact ⟨_, rfl⟩
          · exact ⟨_, rfl⟩
        | bits thr cell bit =>
          obtain ⟨l1, l2, l3⟩ := k6
          have hp : r.ptr < pendingSize count := by rw [l3]; exact ptr_lt (by omega) k4 l1
          simp only [frameStepW, frameStep, hp, ↓reduceIte]
          split <;> exact ⟨_, rfl⟩
        | call thr cell bit c => simp only [frameStepW, frameStep]; split <;> exact ⟨_, rfl⟩
        | next => exact ⟨_, rfl⟩
      | clear thr p =>
        cases p with
        | none => exact ⟨_, rfl⟩
        | some p => simp only [frameStepW, frameStep, cellIdx_lt j1.1 (j1.2 p rfl), ↓reduceIte]; exact ⟨_, rfl⟩
      | plain thr c => simp only [frameStepW, frameStep]; split <;> exact ⟨_, rfl⟩
  | setPrio t p =>
    have := ha t p rfl
    simp only [stepW, step, levels, this, ↓reduceIte]
    exact ⟨_, rfl⟩
  | _ => exact ⟨_, rfl⟩

end Verif.Soft
