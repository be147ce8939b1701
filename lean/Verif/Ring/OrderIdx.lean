import Verif.Ring.OrderRun
/-! # Which slots the two ends work on, with old values -/
namespace Verif.Ring

open Verif.Spsc Verif.Order

variable {k cap : Nat} {τ ε : Type}

/-- The value is written, and not yet announced. -/
def sAt : SPc k τ ε → Option Nat
  | .wrRmw _ i => some i
  | _ => none

def rIn : RPc k → Bool
  | .drSlot st j => decide (j < len st)
  | _ => true

/-- Length, cursor and slots. -/
structure Idx (cap : Nat) (st : Word k) (spc : SPc k τ ε) (rpc : RPc k) : Prop where
  cur : cur st < cap
  len : len st ≤ cap
  slot : ∀ i, spc.slot = some i → rDone rpc = false → i = addCursor (Ring.cur st) (Ring.len st) cap ∧ Ring.len st < cap
  loop : rIn rpc = true

/-- A value of the state word that the sender may still read. -/
structure OkW (cap : Nat) (st : Word k) (done : Bool) (v : Word k) : Prop where
  tx : hasWaker v = hasWaker st
  cur : cur v < cap
  len : len v ≤ cap
  same : done = false → addCursor (Ring.cur v) (Ring.len v) cap = addCursor (Ring.cur st) (Ring.len st) cap ∧ Ring.len st ≤ Ring.len v

/-- Evaluate at a concrete program point of the sender. -/
macro "sidx_simp" : tactic => `(tactic| try simp only [SPc.slot, reduceCtorEq, false_implies, implies_true, Option.some.injEq, forall_eq'])

theorem s_idx {s s' : State k τ ε} (h1 : 1 < cap) (hcap : cap < 2 ^ k) (inv : Inv cap s) (ix : Idx cap s.st s.spc s.rpc)
    (h : sStep cap s = some s') : Idx cap s'.st s'.spc s'.rpc := by
  have ix0 := ix
  obtain ⟨st, buf, err, rxw, txw, freed, spc, rpc, log⟩ := s
  unfold Inv at inv
  dsimp only at *
  have icl := inv.closed
  clear inv
  obtain ⟨hc, hl, sa, lp⟩ := ix
  cases spc with
  | idle => simp [sStep, SPc.resting] at h; exact h ▸ ix0
  | gone => simp [sStep, SPc.resting] at h; exact h ▸ ix0
  | owClaim v =>
    clear ix0
    have e1 := len_claimIfFull (st := st) (cap := cap) (by omega) hc
    have e2 := cur_claimIfFull (st := st) (cap := cap) (by omega) hc
    have e4 := @addCursor_step (Ring.cur st) cap cap hc (by omega) (by omega)
    have e5 := @addCursor_cap (Ring.cur st) cap
    have e6 := @addCursor_lt (Ring.cur st) 1 cap hc (by omega)
    have e7 := @addCursor_lt (Ring.cur st) (Ring.len st) cap hc (by omega)
    simp only [SPc.slot, reduceCtorEq, false_implies, implies_true] at sa
    simp only [sStep, SPc.resting, owMid, State.emit, Bool.false_eq_true, ↓reduceIte] at h
    (repeat' split at h) <;> simp only [Option.some.injEq, reduceCtorEq] at h
    all_goals subst h
    all_goals constructor <;> sidx_simp <;> (try simp only [e1, e2]) <;> first | assumption | grind
  | wrRmw v i =>
    clear ix0
    simp only [SPc.slot, Option.some.injEq, forall_eq'] at sa
    simp only [sStep, SPc.resting, State.emit, Bool.false_eq_true, ↓reduceIte] at h
    (repeat' split at h) <;> simp only [Option.some.injEq, reduceCtorEq] at h
    · subst h
      have : addLength st = st := by simp [addLength, *]
      rw [this]
      constructor <;> sidx_simp <;> first | assumption | grind
    all_goals
      subst h
      have e1 := len_addLength (st := st) (by grind)
      have e2 := cur_addLength (st := st) (by grind)
      constructor <;> sidx_simp <;> (try simp only [e1, e2]) <;> first | assumption | grind
  | _ =>
    clear ix0
    try simp only [SPc.slot, reduceCtorEq, false_implies, implies_true, Option.some.injEq, forall_eq'] at sa
    simp only [sStep, SPc.resting, owMid, errTail, State.emit, State.release, closedResult, Bool.false_eq_true, ↓reduceIte] at h
    (repeat' split at h) <;> simp only [Option.some.injEq, reduceCtorEq] at h
    all_goals subst h
    all_goals constructor <;> sidx_simp <;> lc_simp <;> first | assumption | grind

theorem s_idxL {o : Ords} {s s' : State k τ ε} (ix : Idx cap s.st s.spc s.rpc) {l : Nat} {a : Bool} {v : Word k}
    (hv : OkW cap s.st (rDone s.rpc) v) (h : sStep cap { s with st := v } = some s') (ha : sAcc o s.spc = some (.load l a)) :
    Idx cap s.st s'.spc s'.rpc ∧ s'.rpc = s.rpc ∧ sAt s.spc = none ∧ sAt s'.spc = none := by
  have hf := s_alive (s := { s with st := v }) h ha
  obtain ⟨st, buf, err, rxw, txw, freed, spc, rpc, log⟩ := s
  dsimp only at *
  subst hf
  obtain ⟨hc, hl, sa, lp⟩ := ix
  obtain ⟨w1, w2, w3, w4⟩ := hv
  have e5 := @addCursor_cap (Ring.cur v) cap
  unfold sStep at h
  cases spc <;> simp only [sAcc, Option.some.injEq, Acc.load.injEq, reduceCtorEq] at ha <;>
    simp only [SPc.resting, owMid, State.emit, Bool.false_eq_true, if_false] at h <;>
    (repeat' split at h) <;> simp only [Option.some.injEq, reduceCtorEq] at h <;> subst h <;>
    refine ⟨?_, rfl, rfl, rfl⟩ <;> constructor <;> sidx_simp <;> first | assumption | grind

theorem r_take (h1 : 1 < cap) (hcap : cap < 2 ^ k) {st : Word k} (hc : cur st < cap) (hl : len st ≤ cap) :
    cur (take cap st) < cap ∧ len (take cap st) ≤ len st ∧
    addCursor (cur (take cap st)) (len (take cap st)) cap = addCursor (cur st) (len st) cap := by
  have e1 := len_take (st := st) (cap := cap) (by omega) hc
  have e2 := cur_take (st := st) (cap := cap) (by omega) hc
  have e3 : addCursor (Ring.cur st) 1 cap < cap := addCursor_lt hc (by omega)
  have e4 := @addCursor_step (Ring.cur st) (Ring.len st) cap hc
  rw [e1, e2]
  grind

set_option maxHeartbeats 4000000 in
theorem r_idx {s s' : State k τ ε} (h1 : 1 < cap) (hcap : cap < 2 ^ k) (inv : Inv cap s) (ix : Idx cap s.st s.spc s.rpc)
    (h : rStep cap s = some s') : Idx cap s'.st s'.spc s'.rpc ∧ s'.spc = s.spc ∧
    (rDone s'.rpc = false → rDone s.rpc = false ∧ addCursor (Ring.cur s'.st) (Ring.len s'.st) cap = addCursor (Ring.cur s.st) (Ring.len s.st) cap ∧
      Ring.len s'.st ≤ Ring.len s.st) := by
  obtain ⟨st, buf, err, rxw, txw, freed, spc, rpc, log⟩ := s
  dsimp only at *
  clear inv
  obtain ⟨hc, hl, sa, lp⟩ := ix
  obtain ⟨t1, t2, t3⟩ := r_take h1 hcap hc hl
  cases rpc with
  | tvRmw i wake er =>
    obtain ⟨e1, e2, e3⟩ := lc_tvRmw st wake er
    simp only [rDone] at sa
    simp only [rStep, RPc.resting, Bool.false_eq_true, ↓reduceIte] at h
    (repeat' split at h) <;> simp only [Option.some.injEq, reduceCtorEq] at h
    all_goals subst h
    all_goals refine ⟨⟨?_, ?_, ?_, ?_⟩, rfl, ?_⟩ <;> (try simp only [e1, e2, rDone, rIn]) <;> first | assumption | grind
  | _ =>
    have e1 := len_clearLen st
    have e2 := cur_clearLen st
    try simp only [rDone, rIn] at sa lp
    simp only [rStep, RPc.resting, takeValue, dropLoop, dropTail, State.emit, State.release, Bool.false_eq_true, ↓reduceIte] at h
    (repeat' split at h) <;> simp only [Option.some.injEq, reduceCtorEq] at h
    all_goals subst h
    all_goals refine ⟨⟨?_, ?_, ?_, ?_⟩, rfl, ?_⟩ <;> (try simp only [rDone, rIn]) <;> lc_simp <;> (try simp only [e1, e2]) <;>
      first | assumption | grind

/-- What the receiver newly works on, it has claimed: the sender does not work on it. -/
theorem r_slots {o : Ords} {s s' : State k τ ε} (ix : Idx cap s.st s.spc s.rpc)
    (h : rStep cap s = some s') {l : Nat} {w : Ord} (ha : rAcc o cap s.rpc = some (.rmw l w)) (en : Enough o) :
    ∀ i, i ∈ s'.rpc.slots cap → i ∈ s.rpc.slots cap ∨ (w.acq = true ∧ s.spc.slot ≠ some i) := by
  have hf := r_alive h ha
  obtain ⟨st, buf, err, rxw, txw, freed, spc, rpc, log⟩ := s
  obtain ⟨e1, e2, e3, e4, e5, e6, e7, e8, e9⟩ := en
  dsimp only at *
  subst hf
  obtain ⟨hc, hl, sa, lp⟩ := ix
  have ne : rDone rpc = false → ∀ j, j < len st → spc.slot ≠ some (addCursor (cur st) j cap) := by
    intro hd j hj hs
    obtain ⟨h1, h2⟩ := sa _ hs hd
    have := addCursor_inj (by omega) (by omega) h1
    omega
  have ne0 := fun hd h => ne hd 0 h
  rw [addCursor_zero hc] at ne0
  unfold rStep at h
  cases rpc <;> simp only [rAcc, Option.some.injEq, Acc.rmw.injEq, reduceCtorEq] at ha <;> obtain ⟨rfl, rfl⟩ := ha <;>
    simp only [RPc.resting, takeValue, dropLoop, dropTail, State.emit, Bool.false_eq_true, if_false] at h <;>
    (repeat' split at h) <;> simp only [Option.some.injEq, reduceCtorEq] at h <;> subst h <;>
    simp only [rDone, RPc.slots] at * <;> grind

theorem r_slots' {o : Ords} {s s' : State k τ ε} (h : rStep cap s = some s') {l : Nat} {κ : Order.Kind}
    (ha : rAcc o cap s.rpc = some (.other l κ)) : ∀ i, i ∈ s'.rpc.slots cap → i ∈ s.rpc.slots cap := by
  have hf := r_alive h ha
  obtain ⟨st, buf, err, rxw, txw, freed, spc, rpc, log⟩ := s
  dsimp only at *
  subst hf
  unfold rStep at h
  cases rpc <;> simp only [rAcc, Option.some.injEq, Acc.other.injEq, reduceCtorEq] at ha <;>
    simp only [RPc.resting, takeValue, dropLoop, dropTail, State.emit, State.release, Bool.false_eq_true, if_false] at h <;>
    (repeat' split at h) <;> simp only [Option.some.injEq, reduceCtorEq] at h <;> subst h <;>
    simp only [RPc.slots] at * <;> grind [List.mem_range']

theorem r_slotsL {o : Ords} {s s' : State k τ ε} {v : Word k} (h : rStep cap { s with st := v } = some s') {l : Nat} {a : Bool}
    (ha : rAcc o cap s.rpc = some (.load l a)) : s'.rpc = .idle ∧ s'.spc = s.spc ∧ rDone s.rpc = false := by
  have hf := r_alive (s := { s with st := v }) h ha
  obtain ⟨st, buf, err, rxw, txw, freed, spc, rpc, log⟩ := s
  dsimp only at *
  subst hf
  unfold rStep at h
  cases rpc <;> simp only [rAcc, Option.some.injEq, Acc.load.injEq, reduceCtorEq] at ha
  simp only [RPc.resting, State.emit, Bool.false_eq_true, if_false, Option.some.injEq] at h
  subst h
  exact ⟨rfl, rfl, rfl⟩

/-- The sender's accesses: it announces what it has written. -/
theorem s_at {o : Ords} {s s' : State k τ ε} (h : sStep cap s = some s') {a : Acc} (ha : sAcc o s.spc = some a) (hl : ∀ l b, a ≠ .load l b) :
    s'.rpc = s.rpc ∧
    ((∃ i v, s.spc = .wrWrite v i ∧ a = .other (4 + i) .write ∧ sAt s'.spc = some i) ∨
     ((∀ i, a ≠ .other (4 + i) .write) ∧ sAt s'.spc = none ∧ (sAt s.spc = none ∨ ∃ i, sAt s.spc = some i ∧ a = .rmw 0 o.push))) := by
  have hf := s_alive h ha
  obtain ⟨st, buf, err, rxw, txw, freed, spc, rpc, log⟩ := s
  dsimp only at *
  subst hf
  unfold sStep at h
  cases spc <;> simp only [sAcc, Option.some.injEq, reduceCtorEq] at ha <;> subst ha <;>
    first
      | exact absurd rfl (hl _ _)
      | (simp only [SPc.resting, owMid, errTail, State.emit, State.release, Bool.false_eq_true, if_false] at h <;>
          (repeat' split at h) <;> simp only [Option.some.injEq, reduceCtorEq] at h <;> subst h <;>
          refine ⟨rfl, ?_⟩ <;>
          first
            | exact .inl ⟨_, _, rfl, rfl, rfl⟩
            | exact .inr ⟨by simp [lErr, lRxw, lTxw] <;> omega, rfl, .inl rfl⟩
            | exact .inr ⟨by simp, rfl, .inr ⟨_, rfl, rfl⟩⟩)

/-- The receiver only reads slots that it works on. -/
theorem r_reads {o : Ords} {spc : SPc k τ ε} {st : Word k} {rpc : RPc k} (ix : Idx cap st spc rpc) {l : Nat} {κ : Order.Kind}
    (ha : rAcc o cap rpc = some (.other l κ)) (hl : 4 ≤ l) : κ = .read ∧ ∃ i, l = 4 + i ∧ i ∈ rpc.slots cap := by
  have lp := ix.loop
  cases rpc <;> simp only [rAcc, Option.some.injEq, Acc.other.injEq, reduceCtorEq] at ha <;> obtain ⟨rfl, rfl⟩ := ha <;>
    first | (exact absurd hl (by decide)) | skip
  · exact ⟨rfl, _, rfl, by simp [RPc.slots]⟩
  · rename_i st' j
    simp only [rIn, decide_eq_true_eq] at lp
    exact ⟨rfl, _, rfl, by simp only [RPc.slots, List.mem_map]; exact ⟨j, by rw [List.mem_range']; exact ⟨0, by omega, by omega⟩, rfl⟩⟩

end Verif.Ring
