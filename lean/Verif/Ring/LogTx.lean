import Verif.Ring.Run
/-! # Waking the sender of a ring channel -/
namespace Verif.Ring

open Verif.Spsc

variable {k cap : Nat} {τ ε : Type}

/-- About to wake the sender. -/
def rWaking : RPc k → Bool
  | .tvRmw _ wake _ => wake
  | .tvWake _ | .clWaker _ | .drWaker _ => true
  | .drErr st | .drSlot st _ => !has st (CLOSED k) && hasWaker st
  | _ => false

/-- The poll cannot be answered yet and the receiver knows. -/
def Armed (cap : Nat) (κ : Kind) (st : Word k) (log : List (Event τ ε)) : Prop :=
  has st (CLOSED k) = false ∧ hasKind κ st = true ∧
  (κ = .ready → len st = cap ∨ txSince isClaimTx log = true) ∧ (κ = .flush → 0 < len st)

/-- Relation of the log to the state: waking the sender. -/
structure LogT (cap : Nat) (st : Word k) (spc : SPc k τ ε) (rpc : RPc k) (log : List (Event τ ε)) : Prop where
  clh : ∀ st', rpc = .clWaker st' → has st' (HALF k) = true → sDone spc = true
  wake : sDone spc = false → ∀ κ, txWaits log = some κ →
    txSince isTxWake log = true ∨ rWaking rpc = true ∨ Armed cap κ st log

/-- Relation of the log to the state: waking the sender. -/
def LogD (cap : Nat) (s : State k τ ε) : Prop := LogT cap s.st s.spc s.rpc s.log

theorem init_logD : LogD cap (init k τ ε) := by
  constructor <;> simp [init, txWaits]

/-- Evaluate the readers of the log on known events. -/
macro "tlog_simp" : tactic => `(tactic| try simp only [txWaits, txSince, isTxWake, isClaimTx, List.mem_cons,
  reduceCtorEq, false_or, true_or, Bool.false_or, Bool.true_or, false_implies, implies_true, closedResult, Option.some.injEq, forall_eq'])

theorem hasKind_addLength (κ : Kind) (st : Word k) : hasKind κ (addLength st) = hasKind κ st := by
  cases κ <;> simp only [hasKind, has_addLength_READY, has_addLength_FLUSH]
theorem hasKind_claimIfFull (κ : Kind) (st : Word k) : hasKind κ (claimIfFull cap st) = hasKind κ st := by
  cases κ <;> simp only [hasKind, has_claimIfFull_READY, has_claimIfFull_FLUSH]
theorem hasKind_take (κ : Kind) (st : Word k) : hasKind κ (take cap st) = hasKind κ st := by
  cases κ <;> simp only [hasKind, has_take_READY, has_take_FLUSH]
theorem hasKind_or_RX (κ : Kind) (st : Word k) : hasKind κ (st ||| RX k) = hasKind κ st := by
  cases κ <;> simp only [hasKind, has_or, has_RX_READY, has_RX_FLUSH, Bool.or_false]

theorem Armed.of {κ : Kind} {st st' : Word k} {log log' : List (Event τ ε)} (a : Armed cap κ st log)
    (h1 : has st' (CLOSED k) = has st (CLOSED k)) (h2 : hasKind κ st' = hasKind κ st) (h3 : len st' = len st)
    (h4 : txSince isClaimTx log = true → txSince isClaimTx log' = true) : Armed cap κ st' log' := by
  obtain ⟨a1, a2, a3, a4⟩ := a
  refine ⟨h1 ▸ a1, h2 ▸ a2, fun h => ?_, fun h => h3 ▸ a4 h⟩
  rcases a3 h with a3 | a3
  · exact .inl (h3 ▸ a3)
  · exact .inr (h4 a3)

set_option maxHeartbeats 4000000 in
theorem sStep_logD {s s' : State k τ ε} (h1 : 1 < cap) (hcap : cap < 2 ^ k) (inv : Inv cap s) (il : InvL cap s) (lg : LogD cap s)
    (h : sStep cap s = some s') : LogD cap s' := by
  have lg0 := lg
  obtain ⟨st, buf, err, rxw, txw, freed, spc, rpc, log⟩ := s
  obtain ⟨clh, wake⟩ := lg
  have hc := il.1.cur
  have hl := il.1.len
  have sa := il.1.slotat
  have rcl := inv.closed
  have sst := inv.sStore
  have rwk := inv.rwake
  have rtx := inv.rtx
  have hkw := fun κ => @hasKind_hasWaker k κ st
  clear inv il
  have rww : rWaking rpc = true → hasWaker st = true := by
    intro hw
    cases rpc <;> simp only [rWaking, Bool.false_eq_true] at hw
    · exact (rtx rfl).2.1
    · exact rwk (.inl hw)
    · exact rwk (.inl rfl)
    · exact (rtx (by simpa [rTx] using hw)).2.1
    · exact (rtx (by simpa [rTx] using hw)).2.1
    · exact (rtx rfl).2.1
  clear rwk rtx
  dsimp only at *
  cases spc with
  | idle => simp [sStep, SPc.resting] at h; subst h; exact lg0
  | gone => simp [sStep, SPc.resting] at h; subst h; exact lg0
  | owClaim v =>
    clear lg0
    have e1 := len_claimIfFull (st := st) (cap := cap) (by omega) hc
    simp only [sDone, Bool.false_eq_true, imp_false, Bool.not_eq_true, true_implies] at wake clh
    simp only [sStep, SPc.resting, owMid, State.emit, Bool.false_eq_true, if_false] at h
    (repeat' split at h) <;> simp only [Option.some.injEq, reduceCtorEq] at h
    all_goals subst h
    all_goals constructor <;> tlog_simp <;> (try simp only [Armed, sDone, e1, has_claimIfFull_CLOSED, hasKind_claimIfFull]) <;> grind [Armed, txSince, isClaimTx]
  | wrRmw v i =>
    clear lg0
    simp only [sDone, Bool.false_eq_true, imp_false, Bool.not_eq_true, true_implies] at wake clh
    have sa := sa i rfl
    simp only [sStep, SPc.resting, State.emit, Bool.false_eq_true, if_false] at h
    (repeat' split at h) <;> simp only [Option.some.injEq, reduceCtorEq] at h
    · subst h
      have e1 : addLength st = st := by simp [addLength, *]
      constructor <;> tlog_simp <;> (try simp only [sDone, e1]) <;> first | assumption | grind
    all_goals
      subst h
      have hdn : rDone rpc = false := by grind
      have e1 := len_addLength (st := st) (by have := sa hdn; omega)
      constructor <;> tlog_simp <;> (try simp only [Armed, sDone, e1, has_addLength_CLOSED, hasKind_addLength]) <;> grind [Armed, txSince, isClaimTx]
  | pRmw κ w wr =>
    clear lg0
    simp only [sDone, Bool.false_eq_true, imp_false, Bool.not_eq_true, true_implies, sStoring] at wake clh sst
    simp only [sStep, SPc.resting, State.emit, closedResult, Bool.false_eq_true, if_false] at h
    (repeat' split at h) <;> simp only [Option.some.injEq, reduceCtorEq] at h
    all_goals subst h
    all_goals constructor <;> tlog_simp <;> (try simp only [Armed, sDone, has_setKind_CLOSED, hasKind_setKind, len_setKind]) <;>
      grind [Armed, txSince, isClaimTx, pollReady]
  | pLoad κ w =>
    clear lg0
    simp only [sDone, Bool.false_eq_true, imp_false, Bool.not_eq_true, true_implies] at wake clh
    simp only [sStep, SPc.resting, State.emit, closedResult, Bool.false_eq_true, if_false] at h
    (repeat' split at h) <;> simp only [Option.some.injEq, reduceCtorEq] at h
    all_goals subst h
    all_goals constructor <;> tlog_simp <;> (try simp only [sDone]) <;>
      first | assumption | grind [Armed, txSince, isClaimTx, pollReady]
  | _ =>
    clear lg0
    simp only [sDone, Bool.false_eq_true, Bool.true_eq_false, imp_false, Bool.not_eq_true, true_implies, false_implies] at wake clh
    simp only [sStep, SPc.resting, owMid, errTail, closedResult, State.emit, State.release, Bool.false_eq_true, if_false] at h
    (repeat' split at h) <;> simp only [Option.some.injEq, reduceCtorEq] at h
    all_goals subst h
    all_goals constructor <;> (try simp only [sDone, Bool.true_eq_false, false_implies]) <;> tlog_simp <;>
      first | assumption | grind [Armed, txSince, isClaimTx]

/-- What `take_value` does to the wait of the sender. -/
theorem wake_take {st : Word k} {log : List (Event τ ε)} {κ : Kind} (hcap : cap < 2 ^ k) (hc : cur st < cap) (hl : 0 < len st)
    (a : Armed cap κ st log) (i : Nat) (er : Bool) :
    rWaking (.tvRmw i (shouldWake cap st) er : RPc k) = true ∨ Armed cap κ (take cap st) (.claimRx :: log) := by
  have e1 := len_take (st := st) (cap := cap) (by omega) hc
  obtain ⟨a1, a2, a3, a4⟩ := a
  have e2 := has_take_CLOSED cap st
  have e3 := hasKind_take (cap := cap) κ st
  simp only [rWaking, Armed, e1, e2, e3, txSince, isClaimTx, Bool.false_or]
  cases κ with
  | ready =>
    rcases a3 rfl with h | h
    · left; simp [shouldWake, a2, h]
    · right; exact ⟨a1, a2, fun _ => .inr h, fun hh => by simp at hh⟩
  | flush =>
    have a4 := a4 rfl
    have hn : hasKind .ready st = false := by revert a2; simp only [hasKind]; cases has st (READY k) <;> simp
    by_cases h : len st = 1
    · left; simp [shouldWake, hn, a2, h]
    · right; exact ⟨a1, a2, fun hh => by simp at hh, fun _ => by omega⟩
  | close => right; exact ⟨a1, a2, fun hh => by simp at hh, fun hh => by simp at hh⟩

set_option maxHeartbeats 4000000 in
theorem rStep_logD {s s' : State k τ ε} (h1 : 1 < cap) (hcap : cap < 2 ^ k) (inv : Inv cap s) (il : InvL cap s) (lg : LogD cap s)
    (h : rStep cap s = some s') : LogD cap s' := by
  have lg0 := lg
  obtain ⟨st, buf, err, rxw, txw, freed, spc, rpc, log⟩ := s
  obtain ⟨clh, wake⟩ := lg
  have hc := il.1.cur
  have hl := il.1.len
  have half := inv.half
  have rcl := inv.closed
  have rund := inv.rundo
  have fi2 := inv.first2
  have hkw := fun κ => @hasKind_hasWaker k κ st
  clear inv il
  dsimp only at *
  cases rpc with
  | idle => simp [rStep, RPc.resting] at h; subst h; exact lg0
  | gone => simp [rStep, RPc.resting] at h; subst h; exact lg0
  | pnUndo st' =>
    have sd := (rund rfl).2.1
    simp only [rStep, RPc.resting, takeValue, State.emit, Bool.false_eq_true, if_false] at h
    (repeat' split at h) <;> simp only [Option.some.injEq, reduceCtorEq] at h
    all_goals subst h
    all_goals constructor <;> grind
  | tvRmw i wk er =>
    clear lg0
    obtain ⟨e1, e2, e3⟩ := lc_tvRmw st wk er
    have e4 : ∀ κ, wk = false → hasKind κ (st ||| (if wk then READY k ||| FLUSH k else 0#(2 * k + 6)) |||
        (if er then ERR k else 0#(2 * k + 6))) = hasKind κ st := by
      intro κ hw
      subst hw
      cases κ <;> cases er <;> simp only [hasKind, Bool.false_eq_true, ↓reduceIte] <;> flag_simp
    cases wk <;> cases er <;> simp only [Bool.false_eq_true, ↓reduceIte] at h e1 e2 e3 e4 <;>
    simp only [rWaking, rDone, Bool.false_eq_true, Bool.true_eq_false, Bool.or_false, reduceCtorEq, false_or, true_or] at wake half <;>
    simp only [rStep, RPc.resting, Bool.false_eq_true, ↓reduceIte, Bool.false_and, Bool.true_and] at h <;>
    (repeat' split at h) <;> simp only [Option.some.injEq, reduceCtorEq] at h
    all_goals subst h
    all_goals constructor <;> tlog_simp <;> (try simp only [rWaking, Armed, e1, e3, e4]) <;>
      grind [Armed, txSince, isClaimTx]
  | _ =>
    clear lg0
    have wt : ∀ κ, Armed cap κ st log → (0 < len st → shouldWake cap st = false → Armed cap κ (take cap st) (.claimRx :: log) ∧
        Armed cap κ (take cap st ||| RX k) (.claimRx :: log)) ∧ (¬0 < len st → ∀ e : Event τ ε, e = .ended ∨ e = .empty ∨ (∃ w, e = .pending w) →
        Armed cap κ (take cap st) log ∧ Armed cap κ (take cap st) (e :: log) ∧ Armed cap κ (take cap st ||| RX k) (e :: log)) := by
      intro κ a
      have e2 := has_take_CLOSED cap st
      have e3 := hasKind_take (cap := cap) κ st
      refine ⟨fun hl0 hs => ?_, fun hl0 e he => ?_⟩
      · rcases wake_take hcap hc hl0 a 0 false with h | h
        · simp [rWaking, hs] at h
        · refine ⟨h, h.of ?_ (hasKind_or_RX κ _) ?_ id⟩
          · flag_simp
          · lc_simp
      · have e1 : len (take cap st) = len st := by rw [len_take (by omega) hc]; omega
        have q : Armed cap κ (take cap st) log := a.of e2 e3 e1 id
        have q' : Armed cap κ (take cap st) (e :: log) := by
          refine q.of rfl rfl rfl ?_
          rcases he with rfl | rfl | ⟨w, rfl⟩ <;> exact id
        refine ⟨q, q', q'.of ?_ (hasKind_or_RX κ _) ?_ id⟩
        · flag_simp
        · lc_simp
    have wt1 : ∀ κ, Armed cap κ st log → 0 < len st → shouldWake cap st = false →
        Armed cap κ (take cap st) (.claimRx :: log) ∧ Armed cap κ (take cap st ||| RX k) (.claimRx :: log) :=
      fun κ a hl0 hs => (wt κ a).1 hl0 hs
    have wt2 : ∀ κ, Armed cap κ st log → ¬0 < len st →
        Armed cap κ (take cap st) log ∧ Armed cap κ (take cap st) (.ended :: log) ∧ Armed cap κ (take cap st) (.empty :: log) ∧
        ∀ w, Armed cap κ (take cap st) (.pending w :: log) ∧ Armed cap κ (take cap st ||| RX k) (.pending w :: log) :=
      fun κ a hl0 => ⟨((wt κ a).2 hl0 .ended (.inl rfl)).1, ((wt κ a).2 hl0 .ended (.inl rfl)).2.1, ((wt κ a).2 hl0 .empty (.inr (.inl rfl))).2.1,
        fun w => ((wt κ a).2 hl0 (.pending w) (.inr (.inr ⟨w, rfl⟩))).2⟩
    have wt3 : ∀ κ, Armed cap κ st log → (∀ v, Armed cap κ st (.recv v :: log)) ∧ (∀ e, Armed cap κ st (.recvErr e :: log)) ∧
        (∀ b, Armed cap κ st (.terminated b :: log)) ∧ ∀ w, Armed cap κ st (.storeRx w :: log) :=
      fun κ a => ⟨fun _ => a.of rfl rfl rfl id, fun _ => a.of rfl rfl rfl id, fun _ => a.of rfl rfl rfl id, fun _ => a.of rfl rfl rfl id⟩
    clear wt
    simp only [rWaking, rDone, rSt, Bool.false_eq_true, Bool.true_eq_false, Bool.or_false, reduceCtorEq, false_or, true_or, true_implies] at wake half fi2 rcl
    simp only [rStep, RPc.resting, takeValue, dropTail, dropLoop, State.emit, State.release, Bool.false_eq_true, if_false] at h
    (repeat' split at h) <;> simp only [Option.some.injEq, reduceCtorEq] at h
    all_goals subst h
    all_goals constructor <;> tlog_simp <;> (try simp only [rWaking]) <;>
      first | assumption | grind [Armed]

theorem sCall_logD {s : State k τ ε} (lg : LogD cap s) (h : s.spc.isIdle = true) (op : SOp τ ε) : LogD cap (sCall s op) := by
  obtain ⟨st, buf, err, rxw, txw, freed, spc, rpc, log⟩ := s
  cases spc <;> simp [SPc.isIdle] at h
  obtain ⟨clh, wake⟩ := lg
  dsimp only at *
  simp only [sDone, Bool.false_eq_true, imp_false, true_implies] at wake clh
  cases op <;> simp only [sCall, State.emit] <;> constructor <;> tlog_simp <;>
    (try simp only [sDone, Armed, txSince, isClaimTx, Bool.false_or]) <;> first | assumption | grind [Armed]

theorem rCall_logD {s : State k τ ε} (lg : LogD cap s) (h : s.rpc.isIdle = true) (op : ROp) : LogD cap (rCall s op) := by
  obtain ⟨st, buf, err, rxw, txw, freed, spc, rpc, log⟩ := s
  cases rpc <;> simp [RPc.isIdle] at h
  obtain ⟨clh, wake⟩ := lg
  dsimp only at *
  simp only [rWaking, Bool.false_eq_true, false_or] at wake
  cases op <;> simp only [rCall] <;> constructor <;> simp [rWaking] <;> assumption

theorem step_logD (h1 : 1 < cap) (hcap : cap < 2 ^ k) (s : State k τ ε) (a : Act τ ε) (s' : State k τ ε) (inv : Inv cap s)
    (il : InvL cap s) (lg : LogD cap s) (h : step cap s a = some s') : LogD cap s' := by
  cases a with
  | sCall op =>
    simp only [step] at h
    split at h <;> simp at h <;> subst h
    · exact sCall_logD lg (by assumption) op
    · exact lg
  | rCall op =>
    simp only [step] at h
    split at h <;> simp at h <;> subst h
    · exact rCall_logD lg (by assumption) op
    · exact lg
  | sStep => exact sStep_logD h1 hcap inv il lg h
  | rStep => exact rStep_logD h1 hcap inv il lg h

end Verif.Ring
