import Verif.Soft.Cur
/-! # Invariants of the software threads: what is resumed was pending -/
namespace Verif.Soft

/-- The bits a scheduler loop will act upon without looking again. -/
def RowPc.will : RowPc → Nat → Bool
  | .bits thr cell _, t => decide (thr ≤ t) && cell.getLsbD t
  | .call thr cell _ _, t => decide (thr < t) && cell.getLsbD t
  | _, _ => false

/-- Those bits are set. -/
def SnapOk (mem : Nat → U32) : List Frame → Prop
  | [] => True
  | .row r pc :: st => (∀ t, t < 32 → pc.will t = true → (mem r.ptr).getLsbD t = true) ∧ SnapOk mem st
  | _ :: st => SnapOk mem st

/-- A call of `clear_pending` is in progress. -/
def noClr : List Frame → Prop
  | [] => True
  | .clear _ _ :: _ => False
  | _ :: st => noClr st

theorem snapOk_mono {mem mem' : Nat → U32} : ∀ {st : List Frame}, SnapOk mem st →
    (∀ r pc, .row r pc ∈ st → ∀ t, t < 32 → (mem r.ptr).getLsbD t = true → (mem' r.ptr).getLsbD t = true) → SnapOk mem' st
  | [], _, _ => trivial
  | f :: st, h, hm => by
    cases f with
    | row r pc =>
      exact ⟨fun t ht hw => hm r pc (by simp) t ht (h.1 t ht hw), snapOk_mono h.2 fun r' pc' hr => hm r' pc' (by simp [hr])⟩
    | _ => exact snapOk_mono (st := st) h fun r' pc' hr => hm r' pc' (by simp [hr])

theorem row_ptr {count : Nat} : ∀ {st : List Frame}, StackOk count st → ∀ r pc, .row r pc ∈ st →
    r.ptr = 28 - r.priority ∧ 0 < r.priority ∧ r.priority ≤ running st ∧ r.priority ≤ 27
  | f :: st, h, r, pc, hm => by
    have hl := level_le h _ hm r.priority rfl
    rcases List.mem_cons.1 hm with rfl | hm
    · obtain ⟨_, _, a, b, c, _⟩ := h.1
      exact ⟨c, by omega, hl, b⟩
    · have := row_ptr h.2 r pc hm
      exact ⟨this.1, this.2.1, hl, this.2.2.2⟩

/-- Requests and resumes agree with what is pending. -/
structure InvR (count : Nat) (s : State) : Prop where
  snap : SnapOk s.mem s.stack
  nc : noClr s.stack
  acc : ∀ t p, t < count → p < 27 → requests t p s.log = runs t p s.log + if (s.mem (27 - p)).getLsbD t = true then 1 else 0

theorem init_invR (count : Nat) (prio : Nat → Nat) : InvR count (init prio) := by
  refine ⟨trivial, trivial, ?_⟩
  intro t p _ _
  simp [init, requests, runs]

theorem snapOk_row {mem : Nat → U32} {r : Row} {pc : RowPc} {st : List Frame} (h : ∀ t, t < 32 → pc.will t = true → (mem r.ptr).getLsbD t = true)
    (h' : SnapOk mem st) : SnapOk mem (.row r pc :: st) := ⟨h, h'⟩

theorem advance_will {count thr : Nat} {r : Row} {cell : U32} {mem : Nat → U32} {st : List Frame} (hc : count ≤ 32) (ht : thr < count)
    (h : ∀ t, thr < t → t < 32 → cell.getLsbD t = true → (mem r.ptr).getLsbD t = true) (h' : SnapOk mem st) :
    SnapOk mem (advance count r thr cell (1#32 <<< thr) :: st) := by
  rw [advance_small r cell hc ht]
  split
  · exact ⟨by simp [RowPc.will], h'⟩
  · refine ⟨?_, h'⟩
    intro t h1 h2
    simp only [RowPc.will, Bool.and_eq_true, decide_eq_true_eq] at h2
    exact h t (by omega) h1 h2.2

set_option maxHeartbeats 400000 in
theorem frameStep_invR {count : Nat} (hc : count ≤ 32) {s s' : State} {f : Frame} {rest : List Frame} (a : InvA count s) (i : InvR count s)
    (hst : s.stack = f :: rest) (h : frameStep count s rest f = some s') : InvR count s' := by
  obtain ⟨i1, i2, i3⟩ := i
  have j := a.ok
  rw [hst] at i1 i2 j
  obtain ⟨j1, j2⟩ := j
  cases f with
  | req thr pc =>
    cases pc with
    | load => simp only [frameStep, Option.some.injEq] at h; subst h; exact ⟨i1, i2, i3⟩
    | cell p =>
      have hlt : thr < 32 := by have := j1.1; omega
      simp only [frameStep, cellIdx_lt j1.1 j1.2, ↓reduceIte, Option.some.injEq] at h
      simp only [cellIdx_small j1.1 hc j1.2, pendingBit_small hlt] at h
      have hfr : s.mem (27 - p) &&& 1#32 <<< thr = 0 ↔ (s.mem (27 - p)).getLsbD thr = false := by
        constructor
        · intro h0
          cases hx : (s.mem (27 - p)).getLsbD thr
          · rfl
          · exact absurd h0 ((and_bit_ne hlt).2 hx)
        · intro hx
          refine Classical.byContradiction fun hn => ?_
          rw [(and_bit_ne hlt).1 hn] at hx
          simp at hx
      subst h
      refine ⟨?_, ?_, ?_⟩
      · have : SnapOk (upd s.mem (27 - p) (s.mem (27 - p) ||| 1#32 <<< thr)) rest := by
          refine snapOk_mono (mem := s.mem) i1 ?_
          intro r pc _ t ht hb
          simp only [upd]
          split
          · rename_i e; rw [getLsbD_or_bit ht, ← e, hb]; rfl
          · exact hb
        dsimp only; split <;> exact this
      · dsimp only; split <;> exact i2
      · intro t q ht hq
        have i3 := i3 t q ht hq
        have hpl := j1.2
        simp only [requests, runs, upd]
        by_cases e : q = p
        · subst e
          simp only [↓reduceIte, getLsbD_or_bit (show t < 32 by omega)]
          by_cases e' : t = thr
          · subst e'
            simp only [true_and, decide_true, Bool.or_true, ↓reduceIte]
            by_cases hb : (s.mem (27 - q)).getLsbD t = true
            · have : ¬ (s.mem (27 - q) &&& 1#32 <<< t = 0) := by rw [hfr, hb]; simp
              simp only [this, decide_false, Bool.false_eq_true, ↓reduceIte]
              simp only [hb, ↓reduceIte] at i3
              omega
            · have hb' : (s.mem (27 - q)).getLsbD t = false := by simpa using hb
              have : s.mem (27 - q) &&& 1#32 <<< t = 0 := hfr.2 hb'
              simp only [this, decide_true, ↓reduceIte]
              simp only [hb', Bool.false_eq_true, ↓reduceIte] at i3
              omega
          · simp only [Ne.symm e', false_and, ↓reduceIte, e', decide_false, Bool.or_false, Nat.zero_add]
            exact i3
        · have e2 : ¬ (27 - q = 27 - p) := by omega
          simp only [e2, ↓reduceIte, Ne.symm e, false_and, and_false, Nat.zero_add]
          exact i3
    | header p =>
      simp only [frameStep, Option.some.injEq] at h
      subst h
      refine ⟨?_, ?_, ?_⟩
      · have : SnapOk (upd s.mem 0 (s.mem 0 ||| 1#32 <<< p)) rest := by
          refine snapOk_mono (mem := s.mem) i1 ?_
          intro r pc hr t ht hb
          have := row_ptr j2 r pc hr
          simp only [upd]
          rw [if_neg (by omega)]
          exact hb
        dsimp only; split <;> exact this
      · dsimp only; split <;> exact i2
      · intro t q ht hq
        simp only [upd, show ¬ (27 - q = 0) from by omega, ↓reduceIte]
        exact i3 t q ht hq
  | start =>
    simp only [frameStep] at h
    have hm : ∀ x, SnapOk (upd s.mem 0 x) rest := by
      intro x
      refine snapOk_mono (mem := s.mem) i1 ?_
      intro r pc hr t ht hb
      have := row_ptr j2 r pc hr
      simp only [upd]
      rw [if_neg (by omega)]
      exact hb
    split at h
    · simp only [Option.some.injEq] at h; subst h; exact ⟨i1, i2, i3⟩
    · simp only [Option.some.injEq] at h
      subst h
      refine ⟨⟨by simp [RowPc.will], hm _⟩, i2, ?_⟩
      intro t q ht hq
      simp only [upd, show ¬ (27 - q = 0) from by omega, ↓reduceIte]
      exact i3 t q ht hq
  | row r pc =>
    obtain ⟨k1, k2, k3, k4, k5, k6⟩ := j1
    have hp : r.ptr < pendingSize count := by rw [pendingSize_small k1 hc]; omega
    obtain ⟨i1', i1⟩ := i1
    cases pc with
    | load thr =>
      have : thr = 0 := k6
      subst this
      have hge : 0 + (1 <<< colBits) ≥ count := by simp [colBits]; omega
      simp only [frameStep, hp, ↓reduceIte, hge] at h
      split at h
      · simp only [colBits, show (0 + 1 <<< 5 < 65536) from by decide, ↓reduceIte, Option.some.injEq] at h
        subst h
        exact ⟨⟨by simp [RowPc.will], i1⟩, i2, i3⟩
      · simp only [Option.some.injEq] at h
        subst h
        refine ⟨⟨?_, i1⟩, i2, i3⟩
        intro t ht hw
        simp only [RowPc.will, Bool.and_eq_true] at hw
        exact hw.2
    | bits thr cell bit =>
      obtain ⟨ht, hb⟩ := k6
      subst hb
      have h32 : thr < 32 := by omega
      simp only [frameStep, hp, ↓reduceIte, and_bit_ne h32] at h
      split at h
      · rename_i hcell
        simp only [Option.some.injEq] at h
        subst h
        have hset : (s.mem r.ptr).getLsbD thr = true := i1' thr h32 (by simp [RowPc.will, hcell])
        refine ⟨⟨?_, ?_⟩, i2, ?_⟩
        · intro t h1 h2
          simp only [RowPc.will, Bool.and_eq_true, decide_eq_true_eq] at h2
          simp only [upd, ↓reduceIte, getLsbD_andnot_bit h1, h2.2]
          simp; omega
        · refine snapOk_mono (mem := s.mem) i1 ?_
          intro r' pc' hr t h1 h2
          have := row_ptr j2 r' pc' hr
          simp only [upd]
          rw [if_neg (by omega)]
          exact h2
        · intro t q h1 hq
          have i3 := i3 t q h1 hq
          simp only [requests, runs, upd]
          by_cases e : q = r.priority - 1
          · have e1 : 27 - q = r.ptr := by omega
            rw [e1] at i3
            simp only [e1, ↓reduceIte, getLsbD_andnot_bit (show t < 32 by omega), ← e]
            by_cases e' : t = thr
            · subst e'
              simp only [hset, ↓reduceIte] at i3
              simp
              omega
            · simp only [Ne.symm e', e', false_and, ↓reduceIte, ne_eq, not_false_eq_true, decide_true, Bool.and_true, Nat.zero_add]
              exact i3
          · have e1 : ¬ (27 - q = r.ptr) := by omega
            simp only [e1, ↓reduceIte, Ne.symm e, and_false, Nat.zero_add]
            exact i3
      · simp only [Option.some.injEq] at h
        subst h
        refine ⟨advance_will hc ht ?_ i1, ?_, i3⟩
        · intro t h1 h2 h3
          exact i1' t h2 (by simp [RowPc.will, h3]; omega)
        · unfold advance; split
          · exact i2
          · split <;> exact i2
    | call thr cell bit c =>
      obtain ⟨ht, hb⟩ := k6
      subst hb
      simp only [frameStep] at h
      split at h <;> (simp only [Option.some.injEq] at h; subst h)
      · exact ⟨⟨i1', i1⟩, i2, i3⟩
      · refine ⟨advance_will hc ht ?_ i1, ?_, i3⟩
        · intro t h1 h2 h3
          exact i1' t h2 (by simp [RowPc.will, h3]; omega)
        · unfold advance; split
          · exact i2
          · split <;> exact i2
    | next =>
      simp only [frameStep, Option.some.injEq] at h
      have hm : ∀ x, SnapOk (upd s.mem 0 x) rest := by
        intro x
        refine snapOk_mono (mem := s.mem) i1 ?_
        intro r pc hr t ht hb
        have := row_ptr j2 r pc hr
        simp only [upd]
        rw [if_neg (by omega)]
        exact hb
      subst h
      refine ⟨?_, ?_, ?_⟩
      · dsimp only; split
        · exact hm _
        · split <;> exact ⟨by simp [RowPc.will], hm _⟩
      · dsimp only; split
        · exact i2
        · split <;> exact i2
      · intro t q ht hq
        simp only [upd, show ¬ (27 - q = 0) from by omega, ↓reduceIte]
        exact i3 t q ht hq
  | clear thr p => exact absurd i2 id
  | plain thr c =>
    simp only [frameStep] at h
    split at h <;> (simp only [Option.some.injEq] at h; subst h)
    · exact ⟨i1, i2, i3⟩
    · exact ⟨i1, i2, i3⟩

theorem step_invR {count : Nat} (hc : count ≤ 32) {s s' : State} {a : Act} (ha : ∀ t, a ≠ .clear t) (i : InvA count s) (k : InvR count s)
    (h : step count s a = some s') : InvR count s' := by
  obtain ⟨k1, k2, k3⟩ := k
  cases a <;> simp only [step] at h
  case step =>
    split at h
    · simp only [Option.some.injEq] at h; exact h ▸ ⟨k1, k2, k3⟩
    · rename_i f rest hst; exact frameStep_invR hc i ⟨k1, k2, k3⟩ hst h
  case ret =>
    simp only [Option.some.injEq] at h
    subst h
    unfold ret
    split <;> rename_i hst
    · rw [hst] at k1 k2
      exact ⟨⟨k1.1, k1.2⟩, k2, k3⟩
    · rw [hst] at k1 k2
      exact ⟨k1, k2, k3⟩
    · exact ⟨k1, k2, k3⟩
  case setPrio =>
    split at h
    · simp only [Option.some.injEq] at h; subst h; exact ⟨k1, k2, k3⟩
    · simp at h
  case clear t => exact absurd rfl (ha t)
  all_goals
    simp only [Option.some.injEq] at h
    try split at h
    all_goals subst h
    all_goals exact ⟨k1, k2, k3⟩

end Verif.Soft
