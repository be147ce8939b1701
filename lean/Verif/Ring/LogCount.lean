import Verif.Ring.Lemmas
/-! # Length, cursor and what the log says about the number of values -/
namespace Verif.Ring

open Verif.Spsc

variable {k cap : Nat} {τ ε : Type}

/-- The value the sender is sending. -/
def sVal : SPc k τ ε → Option τ
  | .tsLoad v | .owLoad v | .owClaim v | .owRead v _ | .wrWrite v _ | .wrRmw v _ | .wrBack v _ => some v
  | _ => none

/-- The sender found the channel closed. -/
def sBack : SPc k τ ε → Bool
  | .wrBack _ _ | .pUndo _ => true
  | _ => false

/-- The receiver found no value and the sender gone. -/
def rZero : RPc k → Bool
  | .rdErr => true
  | .pnUndo st => len st == 0
  | _ => false

/-- Length and cursor. -/
structure InvW (cap : Nat) (st : Word k) (spc : SPc k τ ε) (rpc : RPc k) (log : List (Event τ ε)) : Prop where
  cur : cur st < cap
  len : len st ≤ cap
  cnt : npend log = Ring.len st
  cl : has st (CLOSED k) = true ↔ Event.closed ∈ log
  slotlt : ∀ i, spc.slot = some i → i < cap
  slotat : ∀ i, spc.slot = some i → rDone rpc = false → i = addCursor (Ring.cur st) (Ring.len st) cap ∧ Ring.len st < cap
  val : ∀ v, sVal spc = some v → lastCall log = some v
  back : sBack spc = true → has st (CLOSED k) = true
  zero : rZero rpc = true → Ring.len st = 0
  hist : Hist (OkCount cap) log

theorem addCursor_step {c l cap : Nat} (hc : c < cap) (h0 : 0 < l) (hl : l ≤ cap) :
    addCursor (addCursor c 1 cap) (l - 1) cap = addCursor c l cap := by
  unfold addCursor
  repeat' split
  all_goals omega

theorem addCursor_zero {c cap : Nat} (hc : c < cap) : addCursor c 0 cap = c := by
  unfold addCursor
  split <;> omega

theorem addCursor_cap {c cap : Nat} : addCursor c cap cap = c := by
  unfold addCursor
  split <;> omega

theorem npend_push (v : τ) (p : List (Event τ ε)) : npend (.push v :: p) = npend p + 1 := by simp [npend, abs]
theorem npend_claimRx (p : List (Event τ ε)) : npend (.claimRx :: p) = npend p - 1 := by simp [npend, abs]
theorem npend_claimTx (p : List (Event τ ε)) : npend (.claimTx :: p) = npend p - 1 := by simp [npend, abs]
theorem npend_claimAll (p : List (Event τ ε)) : npend (.claimAll :: p) = 0 := by simp [npend, abs]

/-- Evaluate the functions of the log. -/
macro "cnt_simp" : tactic => `(tactic| try simp only [npend_push, npend_claimRx, npend_claimTx, npend_claimAll, npend, abs,
  lastCall, Hist, OkCount, List.mem_cons, reduceCtorEq, false_or, true_or, closedResult])

/-- Evaluate at a concrete program point of the sender. -/
macro "spcw_simp" : tactic => `(tactic| try simp only [SPc.slot, sVal, sBack, sDone, reduceCtorEq, false_implies, implies_true,
  Option.some.injEq, forall_eq', Bool.false_eq_true, imp_false, Bool.not_eq_true])

theorem npend_nil : npend ([] : List (Event τ ε)) = 0 := rfl

theorem init_invW (h : 1 < cap) : InvW cap (init k τ ε).st (init k τ ε).spc (init k τ ε).rpc (init k τ ε).log := by
  constructor <;> simp [init, cur_zero, len_zero, npend_nil, has_zero, SPc.slot, sVal, sBack, rZero, Hist] <;> omega

theorem InvV.zero {st : Word k} {d r t f : Bool} {spc : SPc k τ ε} {rpc : RPc k} (inv : InvV cap st d r t f spc rpc)
    (h : rZero rpc = true) : sDone spc = true := by
  cases rpc <;> simp [rZero] at h
  · exact (inv.dOk (.inr rfl)).1
  · exact (inv.rundo rfl).2.1

theorem sCall_invW {s : State k τ ε} (iw : InvW cap s.st s.spc s.rpc s.log) (h : s.spc.isIdle = true) (op : SOp τ ε) :
    InvW cap (sCall s op).st (sCall s op).spc (sCall s op).rpc (sCall s op).log := by
  obtain ⟨st, buf, err, rxw, txw, freed, spc, rpc, log⟩ := s
  cases spc <;> simp [SPc.isIdle] at h
  obtain ⟨hc, hl, cnt, cl, h1, h2, h3, h6, h4, h5⟩ := iw
  dsimp only at *
  cases op <;> simp only [sCall, State.emit]
  all_goals constructor <;> spcw_simp <;> cnt_simp <;>
    first | assumption | grind [npend]

theorem rCall_invW {s : State k τ ε} (iw : InvW cap s.st s.spc s.rpc s.log) (h : s.rpc.isIdle = true) (op : ROp) :
    InvW cap (rCall s op).st (rCall s op).spc (rCall s op).rpc (rCall s op).log := by
  obtain ⟨st, buf, err, rxw, txw, freed, spc, rpc, log⟩ := s
  cases rpc <;> simp [RPc.isIdle] at h
  obtain ⟨hc, hl, cnt, cl, h1, h2, h3, h6, h4, h5⟩ := iw
  dsimp only at *
  cases op <;> simp only [rCall]
  all_goals constructor <;> first | assumption | (simp [rZero]; done) | exact h2

theorem sStep_invW {s s' : State k τ ε} (h1 : 1 < cap) (hcap : cap < 2 ^ k) (inv : Inv cap s)
    (iw : InvW cap s.st s.spc s.rpc s.log) (h : sStep cap s = some s') :
    InvW cap s'.st s'.spc s'.rpc s'.log := by
  have iw0 := iw
  obtain ⟨st, buf, err, rxw, txw, freed, spc, rpc, log⟩ := s
  unfold Inv at inv
  dsimp only at *
  have icl := inv.closed
  have iz := inv.zero
  clear inv
  obtain ⟨hc, hl, cnt, cl, sl, sa, va, ba, ze, hi⟩ := iw
  cases spc with
  | idle => simp [sStep, SPc.resting] at h; exact h ▸ iw0
  | gone => simp [sStep, SPc.resting] at h; exact h ▸ iw0
  | owClaim v =>
    clear iw0
    have e1 := len_claimIfFull (st := st) (cap := cap) (by omega) hc
    have e2 := cur_claimIfFull (st := st) (cap := cap) (by omega) hc
    have e3 := has_claimIfFull_CLOSED cap st
    have e4 := @addCursor_step (Ring.cur st) cap cap hc (by omega) (by omega)
    have e5 := @addCursor_cap (Ring.cur st) cap
    have e6 := @addCursor_lt (Ring.cur st) 1 cap hc (by omega)
    have e7 := @addCursor_lt (Ring.cur st) (Ring.len st) cap hc (by omega)
    simp only [SPc.slot, sVal, sBack, sDone, reduceCtorEq, false_implies, implies_true, Option.some.injEq, forall_eq',
      Bool.false_eq_true, imp_false, Bool.not_eq_true] at sl sa va ba ze iz
    simp only [sStep, SPc.resting, owMid, State.emit, Bool.false_eq_true, ↓reduceIte] at h
    (repeat' split at h) <;> simp only [Option.some.injEq, reduceCtorEq] at h
    all_goals subst h
    all_goals constructor <;> spcw_simp <;> cnt_simp <;> (try simp only [e1, e2, e3]) <;> first | assumption | grind [npend]
  | wrRmw v i =>
    clear iw0
    simp only [SPc.slot, sVal, sBack, sDone, reduceCtorEq, false_implies, implies_true, Option.some.injEq, forall_eq',
      Bool.false_eq_true, imp_false, Bool.not_eq_true] at sl sa va ba ze iz
    have e3 := has_addLength_CLOSED st
    simp only [sStep, SPc.resting, State.emit, Bool.false_eq_true, ↓reduceIte] at h
    (repeat' split at h) <;> simp only [Option.some.injEq, reduceCtorEq] at h
    · subst h
      have : addLength st = st := by simp [addLength, *]
      rw [this]
      constructor <;> spcw_simp <;> cnt_simp <;> first | assumption | grind [npend]
    all_goals
      subst h
      have e1 := len_addLength (st := st) (by grind)
      have e2 := cur_addLength (st := st) (by grind)
      constructor <;> spcw_simp <;> cnt_simp <;> (try simp only [e1, e2, e3]) <;> first | assumption | grind [npend]
  | _ =>
    clear iw0
    have e7 := @addCursor_lt (Ring.cur st) (Ring.len st) cap hc (by omega)
    try simp only [SPc.slot, sVal, sBack, sDone, reduceCtorEq, false_implies, implies_true, Option.some.injEq, forall_eq',
      Bool.false_eq_true, imp_false, Bool.not_eq_true] at sl sa va ba ze iz
    simp only [sStep, SPc.resting, owMid, errTail, State.emit, State.release, closedResult, Bool.false_eq_true, ↓reduceIte] at h
    (repeat' split at h) <;> simp only [Option.some.injEq, reduceCtorEq] at h
    all_goals subst h
    all_goals constructor <;> spcw_simp <;> cnt_simp <;> lc_simp <;> flag_simp <;> first | assumption | grind [npend, pollReady]

/-- Evaluate at a concrete program point of the receiver. -/
macro "rpcw_simp" : tactic => `(tactic| try simp only [rZero, rDone, reduceCtorEq, false_implies, true_implies, implies_true,
  Bool.false_eq_true])

theorem lc_tvRmw (st : Word k) (a b : Bool) :
    len (st ||| (if a then READY k ||| FLUSH k else 0#(2 * k + 6)) ||| (if b then ERR k else 0#(2 * k + 6))) = len st ∧
    cur (st ||| (if a then READY k ||| FLUSH k else 0#(2 * k + 6)) ||| (if b then ERR k else 0#(2 * k + 6))) = cur st ∧
    has (st ||| (if a then READY k ||| FLUSH k else 0#(2 * k + 6)) ||| (if b then ERR k else 0#(2 * k + 6))) (CLOSED k) =
      has st (CLOSED k) := by
  cases a <;> cases b <;> simp only [Bool.false_eq_true, ↓reduceIte, ← BitVec.or_assoc] <;>
    refine ⟨?_, ?_, ?_⟩ <;> lc_simp <;> flag_simp

/-- The state update of `try_next` and `poll_next`, and the changes of the log. -/
structure Took (cap : Nat) (st st' : Word k) (spc : SPc k τ ε) (log : List (Event τ ε)) : Prop where
  cur : Ring.cur st' < cap
  len : Ring.len st' ≤ cap
  cnt : npend log - 1 = Ring.len st'
  cl : has st' (CLOSED k) = true ↔ Event.closed ∈ log
  slotat : ∀ i, spc.slot = some i → i = addCursor (Ring.cur st') (Ring.len st') cap ∧ Ring.len st' < cap
  back : sBack spc = true → has st' (CLOSED k) = true

theorem InvW.took {st : Word k} {spc : SPc k τ ε} {rpc : RPc k} {log : List (Event τ ε)} (h1 : 1 < cap)
    (hcap : cap < 2 ^ k) (iw : InvW cap st spc rpc log) (hd : rDone rpc = false) :
    Took cap st (take cap st) spc log ∧ Took cap st (take cap st ||| RX k) spc log := by
  obtain ⟨hc, hl, cnt, cl, sl, sa, va, ba, ze, hi⟩ := iw
  have e1 := len_take (st := st) (cap := cap) (by omega) hc
  have e2 := cur_take (st := st) (cap := cap) (by omega) hc
  have e3 : addCursor (Ring.cur st) 1 cap < cap := addCursor_lt hc (by omega)
  have e4 := @addCursor_step (Ring.cur st) (Ring.len st) cap hc
  constructor <;> constructor <;> lc_simp <;> flag_simp <;> (try simp only [e1, e2]) <;> first | assumption | grind

set_option maxHeartbeats 4000000 in
theorem rStep_invW {s s' : State k τ ε} (h1 : 1 < cap) (hcap : cap < 2 ^ k)
    (iw : InvW cap s.st s.spc s.rpc s.log) (h : rStep cap s = some s') :
    InvW cap s'.st s'.spc s'.rpc s'.log := by
  have iw0 := iw
  obtain ⟨st, buf, err, rxw, txw, freed, spc, rpc, log⟩ := s
  dsimp only at *
  cases rpc with
  | idle => simp [rStep, RPc.resting] at h; exact h ▸ iw0
  | gone => simp [rStep, RPc.resting] at h; exact h ▸ iw0
  | tnRmw =>
    obtain ⟨⟨t1, t2, t3, t4, t5, t6⟩, -⟩ := iw.took h1 hcap rfl
    obtain ⟨hc, hl, cnt, cl, sl, sa, va, ba, ze, hi⟩ := iw
    simp only [rStep, RPc.resting, takeValue, State.emit, Bool.false_eq_true, ↓reduceIte] at h
    (repeat' split at h) <;> simp only [Option.some.injEq, reduceCtorEq] at h
    all_goals subst h
    all_goals constructor <;> rpcw_simp <;> cnt_simp <;> first | assumption | grind [npend]
  | pnRmw w =>
    obtain ⟨⟨t1, t2, t3, t4, t5, t6⟩, -⟩ := iw.took h1 hcap rfl
    obtain ⟨hc, hl, cnt, cl, sl, sa, va, ba, ze, hi⟩ := iw
    simp only [rStep, RPc.resting, takeValue, State.emit, Bool.false_eq_true, ↓reduceIte] at h
    (repeat' split at h) <;> simp only [Option.some.injEq, reduceCtorEq] at h
    all_goals subst h
    all_goals constructor <;> rpcw_simp <;> cnt_simp <;> first | assumption | grind [npend]
  | pnRmw2 w =>
    obtain ⟨-, ⟨t1, t2, t3, t4, t5, t6⟩⟩ := iw.took h1 hcap rfl
    obtain ⟨hc, hl, cnt, cl, sl, sa, va, ba, ze, hi⟩ := iw
    simp only [rStep, RPc.resting, takeValue, State.emit, Bool.false_eq_true, ↓reduceIte] at h
    (repeat' split at h) <;> simp only [Option.some.injEq, reduceCtorEq] at h
    all_goals subst h
    all_goals constructor <;> rpcw_simp <;> cnt_simp <;> first | assumption | grind [npend]
  | tvRmw i wake er =>
    clear iw0
    obtain ⟨hc, hl, cnt, cl, sl, sa, va, ba, ze, hi⟩ := iw
    obtain ⟨e1, e2, e3⟩ := lc_tvRmw st wake er
    simp only [rZero, rDone, reduceCtorEq, false_implies, true_implies, implies_true, Bool.false_eq_true] at ze sa
    simp only [rStep, RPc.resting, Bool.false_eq_true, ↓reduceIte] at h
    (repeat' split at h) <;> simp only [Option.some.injEq, reduceCtorEq] at h
    all_goals subst h
    all_goals constructor <;> rpcw_simp <;> (try simp only [e1, e2, e3]) <;> first | assumption | grind [npend]
  | _ =>
    clear iw0
    obtain ⟨hc, hl, cnt, cl, sl, sa, va, ba, ze, hi⟩ := iw
    have e1 := len_clearLen st
    have e2 := cur_clearLen st
    try simp only [rZero, rDone, reduceCtorEq, false_implies, true_implies, implies_true, Bool.false_eq_true] at ze sa
    simp only [rStep, RPc.resting, takeValue, dropLoop, dropTail, State.emit, State.release, Bool.false_eq_true, ↓reduceIte] at h
    (repeat' split at h) <;> simp only [Option.some.injEq, reduceCtorEq] at h
    all_goals subst h
    all_goals constructor <;> rpcw_simp <;> cnt_simp <;> lc_simp <;> flag_simp <;> (try simp only [e1, e2]) <;>
      first | assumption | grind [npend]

end Verif.Ring
