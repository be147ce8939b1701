import Verif.Exec.StrSpec
import Verif.Pulse.Props
/-! # A pulse channel whose receiver is read by a task -/
namespace Verif.Pulse.Read
open Verif.Spsc
open Verif.Exec.Chan (Res)
open Verif.Exec.Str (pulseRecv fresh pulseWake fresh_nil fresh_one fresh_two)

variable {n : Nat}

/-- The waker that a poll in progress uses. -/
def rArg : RPc n → Option Nat
  | .pnRmw w | .pnWrite w | .pnRmw2 w => some w
  | _ => none

/-- The stream has ended and the drop of the receiver has begun. -/
def over : RPc n → Bool
  | .drRmw | .drErr _ | .drWaker _ | .drFree | .gone => true
  | _ => false

/-- A call that is never made by a task. -/
def other : RPc n → Bool
  | .clRmw | .clWaker _ | .tnRmw | .itLoad => true
  | _ => false

/-- An item was handed out. -/
def isItem : Event Nat → Bool
  | .recv _ | .recvErr _ => true
  | _ => false

/-- Everything was received and nothing will follow. -/
structure Fin (n : Nat) (log : List (Event Nat)) : Prop where
  left : SenderLeft log
  all : recvTotal log = accepted n log
  err : recvErrs log = errs log

/-- The state of a channel whose receiver is polled with the waker of thread `t`. -/
structure Fit (t : Nat) (c : State n Nat) : Prop where
  reach : ∃ as, run (init n Nat) as = some c
  wak : ∀ w, c.rxw = some w → w = t
  arg : ∀ w, rArg c.rpc = some w → w = t
  clo : has c.st (CLOSED n) = true → rDone c.rpc = true
  ans : over c.rpc = true → Fin n c.log
  oth : other c.rpc = false

/-- The receiver has returned `Poll::Pending` and will be woken. -/
structure Sleep (c : State n Nat) : Prop where
  idle : c.rpc = .idle
  rx : has c.st (RX n) = true
  dat : cnt c.st ≠ 0 ∨ has c.st (ERR n) = true → sRef c.spc = true ∨ sWk c.spc = true
  snd : sDone c.spc = false ∨ sWk c.spc = true

theorem reach_step {c c' : State n Nat} {a : Act n Nat} (h : ∃ as, run (init n Nat) as = some c) (hs : step c a = some c') :
    ∃ as, run (init n Nat) as = some c' := by
  obtain ⟨as, h⟩ := h
  refine ⟨as ++ [a], ?_⟩
  have : ∀ (as : List (Act n Nat)) (s : State n Nat), run s as = some c → run s (as ++ [a]) = some c' := by
    intro as
    induction as with
    | nil =>
      intro s h
      simp only [run, Option.some.injEq] at h
      subst h
      simp only [List.nil_append, run, hs]
    | cons b bs ih =>
      intro s h
      simp only [run, List.cons_append] at h ⊢
      split at h
      · simp at h
      · exact ih _ h
  exact this as _ h

/-- What is known about every reachable channel. -/
theorem reach_inv {c : State n Nat} (h : ∃ as, run (init n Nat) as = some c) : (Inv c ∨ Doomed c) ∧ LogN c ∧ LogA c := by
  obtain ⟨as, h⟩ := h
  exact run_ind step_logA (.inl (init_inv n Nat)) ⟨init_logN n Nat, init_logA n Nat⟩ h

/-- While the receiver has not left, the channel is sane. -/
theorem reach_sane {c : State n Nat} (h : ∃ as, run (init n Nat) as = some c) (hr : rDone c.rpc = false) : Inv c := by
  rcases (reach_inv h).1 with i | d
  · exact i
  · rcases d.2 with ⟨-, d⟩ | ⟨d, -⟩ <;> cases hh : c.rpc <;> simp [hh, rDone, RPc.leaving, rGone] at hr d

theorem fit_init (t : Nat) : Fit t (init n Nat) :=
  ⟨⟨[], rfl⟩, by simp [init], by simp [init, rArg], by simp [init, has_zero], by simp [init, over], rfl⟩

theorem left_cons {e : Event Nat} {l : List (Event Nat)} (h : SenderLeft l) : SenderLeft (e :: l) := by
  rcases h with h | h
  · cases e <;> first | exact .inl h | exact .inl (by simp [errs])
  · exact .inr (List.mem_cons_of_mem _ h)

/-- After the end of the stream, only the drops of the two ends follow. -/
theorem fin_append {es l : List (Event Nat)} (f : Fin n l) (hh : Hist OkErr (es ++ l)) (hi : ∀ e ∈ es, isItem e = false) : Fin n (es ++ l) := by
  induction es with
  | nil => exact f
  | cons e es ih =>
    obtain ⟨f1, f2, f3⟩ := ih hh.2 fun e he => hi e (by simp [he])
    have h0 : OkErr e (es ++ l) := hh.1
    have hne := hi e (by simp)
    have no : ¬ (errs (es ++ l) = [] ∧ Event.sDropped ∉ es ++ l) := fun h => f1.elim (fun e => e h.1) (fun e => h.2 e)
    refine ⟨left_cons f1, ?_, ?_⟩
    · cases e with
      | send p r => exact absurd h0 no
      | sat p r => exact absurd h0 no
      | recv _ => simp [isItem] at hne
      | _ => exact f2
    · cases e with
      | errCall p => exact absurd h0 no
      | recvErr _ => simp [isItem] at hne
      | _ => exact f3

/-- The steps of the sender, as far as they concern the receiver. -/
structure SRel (c c' : State n Nat) : Prop where
  rpc : c'.rpc = c.rpc
  rxw : ∀ w, c'.rxw = some w → c.rxw = some w
  clo : has c'.st (CLOSED n) = has c.st (CLOSED n)
  log : ∃ es, c'.log = es ++ c.log ∧ ∀ e ∈ es, isItem e = false

theorem sCall_rel {c c' : State n Nat} {op : SOp n Nat} (h : step c (.sCall op) = some c') : SRel c c' := by
  simp only [step] at h
  split at h <;> simp only [Option.some.injEq] at h <;> subst h
  · cases op <;> simp only [sCall] <;> (try split) <;>
      first
        | exact ⟨rfl, fun _ h => h, rfl, [], rfl, by simp⟩
        | exact ⟨rfl, fun _ h => h, rfl, [_], rfl, by simp [isItem]⟩
  · exact ⟨rfl, fun _ h => h, rfl, [], rfl, by simp⟩

theorem sStep_rel {c c' : State n Nat} (harg : sArg c.spc < 2 ^ (n + 1)) (h : step c .sStep = some c') : SRel c c' := by
  simp only [step, sStep] at h
  split at h
  · simp only [Option.some.injEq] at h; subst h; exact ⟨rfl, fun _ h => h, rfl, [], rfl, by simp⟩
  split at h
  · simp at h
  obtain ⟨st, data, rxw, txw, freed, spc, rpc, log⟩ := c
  cases spc <;> simp only [sendTail, satTail, errTail, State.emit, State.release] at h
  all_goals (repeat' (split at h))
  all_goals first
    | (simp at h; done)
    | skip
  all_goals simp only [Option.some.injEq] at h
  all_goals subst h
  all_goals refine ⟨rfl, ?_, ?_, ?_⟩
  all_goals first
    | (show ∀ w, _ = some w → _; first | exact fun _ h => h | (intro w h; simp at h; done))
    | (show ∃ es, _ ∧ _; first
        | exact ⟨[], rfl, by simp⟩
        | exact ⟨[_], rfl, by simp [isItem]⟩
        | exact ⟨[_, _], rfl, by simp [isItem]⟩)
    | skip
  all_goals dsimp only
  all_goals (try simp only [has_or, has_ite, has_zero, has_TX_CLOSED, has_HALF_CLOSED, has_ERR_CLOSED, Bool.or_false, ite_self])
  all_goals rw [show CLOSED n = flag (n + 6) 3 from rfl]
  all_goals first
    | rw [has_satWord _ _ (by omega)]
    | exact has_addWord st _ harg (by omega)

theorem fit_sender {t : Nat} {c c' : State n Nat} (f : Fit t c) (r : SRel c c') (hs : ∃ as, run (init n Nat) as = some c') : Fit t c' := by
  obtain ⟨f1, f2, f3, f4, f5, f6⟩ := f
  obtain ⟨r1, r2, r3, es, r4, r5⟩ := r
  refine ⟨hs, fun w h => f2 w (r2 w h), by rw [r1]; exact f3, by rw [r1, r3]; exact f4, ?_, by rw [r1]; exact f6⟩
  rw [r1]
  intro h
  have lg := (reach_inv hs).2.2
  have hh := lg.hist
  rw [r4] at hh ⊢
  exact fin_append (f5 h) hh r5

theorem arg_lt {c : State n Nat} (h : ∃ as, run (init n Nat) as = some c) : sArg c.spc < 2 ^ (n + 1) := by
  rcases (reach_inv h).1 with i | d
  · exact i.arg
  · have hp : 0 < 2 ^ (n + 1) := Nat.pos_of_ne_zero (by simp)
    rcases d.2 with ⟨d, -⟩ | ⟨-, d⟩ <;> cases hh : c.spc <;> simp [hh, sGone, SPc.leaving, sArg] at d ⊢ <;> exact hp

theorem fit_call {t : Nat} {c c' : State n Nat} {op : SOp n Nat} (f : Fit t c) (h : step c (.sCall op) = some c') : Fit t c' :=
  fit_sender f (sCall_rel h) (reach_step f.reach h)

theorem fit_send {t : Nat} {c c' : State n Nat} (f : Fit t c) (h : step c .sStep = some c') : Fit t c' :=
  fit_sender f (sStep_rel (arg_lt f.reach) h) (reach_step f.reach h)

theorem sleep_call {c c' : State n Nat} {op : SOp n Nat} (sl : Sleep c) (h : step c (.sCall op) = some c') : Sleep c' := by
  obtain ⟨s1, s2, s3, s4⟩ := sl
  simp only [step] at h
  split at h <;> simp only [Option.some.injEq] at h <;> subst h
  · rename_i hi
    obtain ⟨st, data, rxw, txw, freed, spc, rpc, log⟩ := c
    cases spc <;> simp [SPc.isIdle] at hi
    cases op <;> simp only [sCall] <;> (try split) <;> exact ⟨s1, s2, fun h => absurd (s3 h) (by simp [sRef, sWk]), .inl rfl⟩
  · exact ⟨s1, s2, s3, s4⟩

/-- The sender of a sleeping receiver leaves it asleep or wakes it. -/
theorem sleep_send {t : Nat} {c c' : State n Nat} (f : Fit t c) (sl : Sleep c) (h : step c .sStep = some c') :
    Sleep c' ∨ (fresh c.log c'.log).findSome? pulseWake = some t := by
  obtain ⟨s1, s2, s3, s4⟩ := sl
  have inv := reach_sane f.reach (by rw [s1]; rfl)
  have hcl : has c.st (CLOSED n) = false := by
    cases e : has c.st (CLOSED n) with
    | false => rfl
    | true => have := f.clo e; rw [s1] at this; simp [rDone] at this
  have hwak := f.wak
  unfold Inv at inv
  have hfail := inv.sfail
  have hfirst := inv.first1
  have harg := inv.arg
  obtain ⟨st, data, rxw, txw, freed, spc, rpc, log⟩ := c
  simp only [step, sStep] at h
  dsimp only at *
  subst s1
  split at h
  · simp only [Option.some.injEq] at h; subst h; exact .inl ⟨rfl, s2, s3, s4⟩
  split at h
  · simp at h
  cases spc
  case wakeRef =>
    simp only at h
    split at h
    · simp at h
    · rename_i w
      simp only [Option.some.injEq] at h
      subst h
      right
      rw [← hwak w rfl]
      simp [fresh, pulseWake, State.emit]
  case errWaker st0 _ =>
    simp only at h
    split at h
    · simp at h
    · rename_i w
      have hc0 : has st0 (CLOSED n) = false := by
        cases e : has st0 (CLOSED n) with
        | false => rfl
        | true => have := hfail (by simpa [sFail] using e); rw [hcl] at this; simp at this
      simp only [hc0, errTail, Bool.false_eq_true, ↓reduceIte, Option.some.injEq] at h
      subst h
      right
      rw [← hwak w rfl]
      simp [fresh, pulseWake, State.emit, show log.length + 1 + 1 - log.length = 2 by omega, List.findSome?]
  case drWaker st0 _ =>
    simp only at h
    split at h
    · simp at h
    · rename_i w
      have hc0 : has st0 (HALF n) = false := by
        cases e : has st0 (HALF n) with
        | false => rfl
        | true => have := hfirst (by simp [sSt, e]); simp [rDone] at this
      simp only [hc0, Bool.false_eq_true, ↓reduceIte, Option.some.injEq] at h
      subst h
      right
      rw [← hwak w rfl]
      simp [fresh, pulseWake, State.emit]
  case sendRmw p _ =>
    left
    have hrx : has (addWord st (p <<< 5)) (RX n) = has st (RX n) := has_addWord st p harg (i := 1) (by omega)
    have hc := cnt_addWord st p harg
    have he : has (addWord st (p <<< 5)) (ERR n) = has st (ERR n) := has_addWord st p harg (i := 2) (by omega)
    have hn := checkedAdd_isNone st p harg
    simp only [sendTail, hcl, s2, Bool.false_eq_true, ↓reduceIte, State.emit, Option.some.injEq] at h
    split at h <;> subst h
    · rename_i e
      rw [hn] at e
      simp only [decide_eq_true_eq] at e
      refine ⟨rfl, by rw [← s2]; exact hrx, ?_, .inl rfl⟩
      dsimp only
      rw [hc, he, if_pos e]
      intro x; exact absurd (s3 x) (by simp [sRef, sWk])
    · exact ⟨rfl, by rw [← s2]; exact hrx, fun _ => .inl rfl, .inl rfl⟩
  case satRmw p _ =>
    left
    have hrx : has (satWord st (satArg p)) (RX n) = has st (RX n) := has_satWord st p (i := 1) (by omega)
    simp only [satTail, hcl, s2, Bool.false_eq_true, ↓reduceIte, State.emit, Option.some.injEq] at h
    subst h
    exact ⟨rfl, by rw [← s2]; exact hrx, fun _ => .inl rfl, .inl rfl⟩
  all_goals (try (simp [sDone, sWk] at s4; done))
  all_goals left
  all_goals (simp only [hcl, State.emit] at h)
  all_goals (repeat' (split at h))
  all_goals first
    | (simp at h; done)
    | skip
  all_goals simp only [Option.some.injEq] at h
  all_goals subst h
  all_goals first
    | exact ⟨rfl, s2, fun h => absurd (s3 h) (by simp [sRef, sWk]), .inl rfl⟩
    | (refine ⟨rfl, ?_, fun _ => .inr rfl, .inr rfl⟩; simp [has_or, s2]; done)
    | (refine ⟨rfl, ?_, fun h => absurd (s3 ?_) (by simp [sRef, sWk]), .inl rfl⟩
       · simp [has_or, s2]
       · simpa [has_or, has_TX_ERR, cnt_TX] using h)
    | skip

/-- When the receiver finds the sender gone, no pulse and no error, it has got everything. -/
theorem end_fin {c : State n Nat} (h : ∃ as, run (init n Nat) as = some c) (hr : rDone c.rpc = false) (hrr : rRead c.rpc = false)
    (hcl : has c.st (CLOSED n) = false) (hh : has c.st (HALF n) = true) (he : has c.st (ERR n) = false) (h0 : cnt c.st = 0) : Fin n c.log := by
  have inv := reach_sane h hr
  have l := (reach_inv h).2.2
  have hsd : sDone c.spc = true := by have := inv.half; rw [hh, hr] at this; simpa using this.symm
  have hncl : Event.closed ∉ c.log := fun e => by have := l.closed.1 e; rw [hcl] at this; simp at this
  refine ⟨?_, ?_, ?_⟩
  · rcases (sFacts2 c.spc).don hsd with h | h | h
    · exact .inl (l.sent h)
    · exact .inr (l.drop2 h)
    · exact (l.gone h).elim .inr fun h => .inl h.1
  · obtain ⟨as, h⟩ := h
    have := C24_open_partial h hncl
    rw [h0] at this
    exact this
  · have hv := l.vals
    have hdv : dropErrs c.log = [] := Classical.byContradiction fun e => by have := l.rdrop e; rw [hr] at this; simp at this
    have hret : returned c.log = [] := Classical.byContradiction fun e => hncl (l.ret e).2.1
    have hsf : sFail c.spc = false := by
      cases e : sFail c.spc with
      | false => rfl
      | true => have := inv.sfail e; rw [hcl] at this; simp at this
    have hsv : sVal c.spc = [] := by
      have h1 := inv.first1
      rw [hr] at h1
      cases e : c.spc <;> simp_all [sVal, sDone, sSt]
    have hsw : sWritten c.spc = false := by
      cases e : sWritten c.spc with
      | false => rfl
      | true => have := (sFacts c.spc).written e; rw [hsd] at this; simp at this
    have hn : c.err = none := by
      have := inv.data
      rw [he, hrr, hsf, hsw] at this
      cases e : c.err <;> simp_all
    rw [hsv, hn, hdv, hret] at hv
    simpa using hv.symm

/-- One access of a receiver that is read. -/
theorem recv_fit {t : Nat} {c c' : State n Nat} {r : Verif.Exec.Chan.Res} (f : Fit t c) (hg : c.rpc ≠ .gone) (h : pulseRecv t c = some (c', r)) :
    Fit t c' ∧ (r = .pending → Sleep c') ∧ (r = .ready → c'.rpc = .gone) ∧ (r ≠ .ready → c'.rpc ≠ .gone) := by
  by_cases hi : c.rpc = .idle
  · have hs : step c (.rCall (.pollNext t)) = some (rCall c (.pollNext t)) := by simp [step, hi, RPc.isIdle]
    simp only [pulseRecv, hi, Option.some.injEq, Prod.mk.injEq] at h
    obtain ⟨rfl, rfl⟩ := h
    obtain ⟨f1, f2, f3, f4, f5, f6⟩ := f
    rw [hi] at f4 f5
    exact ⟨⟨reach_step f1 hs, f2, by simp [rCall, rArg], f4, by simp [rCall, over], rfl⟩, by simp, by simp, by simp [rCall]⟩
  · have hq : pulseRecv t c = (match rStep c with
        | none => none
        | some c' =>
          match c'.rpc with
          | .idle =>
            match (fresh c.log c'.log).head? with
            | some (.pending _) => some (c', .pending)
            | some .ended => some (rCall c' .drop, .more)
            | _ => some (c', .more)
          | .gone => some (c', .ready)
          | _ => some (c', .more)) := by
      unfold pulseRecv
      split
      · rename_i e; exact absurd e hi
      · rfl
    rw [hq] at h
    clear hq
    cases hs : rStep c with
    | none => rw [hs] at h; simp at h
    | some c1 =>
      rw [hs] at h
      simp only at h
      have r1 : ∃ as, run (init n Nat) as = some c1 := reach_step (a := .rStep) f.reach hs
      have r2 : c1.rpc = .idle → ∃ as, run (init n Nat) as = some (rCall c1 .drop) := fun e =>
        reach_step (a := .rCall .drop) r1 (by simp [step, e, RPc.isIdle])
      have sane := reach_sane f.reach
      have lg := (reach_inv f.reach).2.1.zero
      have hist := (reach_inv r1).2.2.hist
      have ef := end_fin r1
      obtain ⟨f1, f2, f3, f4, f5, f6⟩ := f
      obtain ⟨st, err, rxw, txw, freed, spc, rpc, log⟩ := c
      simp only [rStep] at hs
      dsimp only at *
      split at hs
      · rename_i hres
        cases rpc <;> simp [RPc.resting] at hres hi hg
      split at hs
      · simp at hs
      have hcl : rDone rpc = false → has st (CLOSED n) = false := by
        intro e
        cases e' : has st (CLOSED n) with
        | false => rfl
        | true => exact absurd (f4 e') (by simp [e])
      cases rpc
      case idle => exact absurd rfl hi
      case gone => exact absurd rfl hg
      case clRmw => simp [other] at f6
      case clWaker => simp [other] at f6
      case tnRmw => simp [other] at f6
      case itLoad => simp [other] at f6
      case reErr =>
        have hcl := hcl rfl
        simp only [Option.some.injEq] at hs
        subst hs
        simp only [fresh_nil, List.head?_nil, Option.some.injEq, Prod.mk.injEq] at h
        obtain ⟨rfl, rfl⟩ := h
        refine ⟨⟨r1, f2, by simp [rArg], ?_, by simp [over], rfl⟩, by simp, by simp, by simp⟩
        dsimp only
        rw [has_or, hcl, has_ERR_CLOSED]; simp
      case rdErr =>
        have hcl := hcl rfl
        simp only at hs
        split at hs
        · simp at hs
        simp only [Option.some.injEq, State.emit] at hs
        subst hs
        simp only [fresh_one, List.head?_cons, Option.some.injEq, Prod.mk.injEq] at h
        obtain ⟨rfl, rfl⟩ := h
        refine ⟨⟨r1, f2, by simp [rArg], ?_, by simp [over], rfl⟩, by simp, by simp, by simp⟩
        dsimp only
        rw [hcl]; simp
      case pnWrite w =>
        have hcl := hcl rfl
        simp only at hs
        split at hs
        · simp at hs
        simp only [Option.some.injEq, State.emit] at hs
        subst hs
        simp only [Option.some.injEq, Prod.mk.injEq] at h
        obtain ⟨rfl, rfl⟩ := h
        refine ⟨⟨r1, ?_, f3, ?_, by simp [over], rfl⟩, by simp, by simp, by simp⟩
        · intro u hu
          simp only [Option.some.injEq] at hu
          exact f3 u (by rw [← hu]; rfl)
        · dsimp only; rw [hcl]; simp
      case pnRmw w =>
        have hcl := hcl rfl
        have inv := sane rfl
        have hhalf := inv.half
        simp only [rDone, Bool.or_false] at hhalf
        simp only [gotCount, State.emit] at hs
        split at hs
        · simp only [Option.some.injEq] at hs
          split at hs <;> subst hs
          all_goals
            simp only [fresh_one, List.head?_cons, Option.some.injEq, Prod.mk.injEq] at h
            obtain ⟨rfl, rfl⟩ := h
            refine ⟨⟨r1, f2, by simp [rArg], ?_, by simp [over], rfl⟩, by simp, by simp, by simp⟩
            dsimp only
            rw [has_take_CLOSED, hcl]; simp
        · rename_i hcnt
          have hcnt : cnt st = 0 := by simpa using hcnt
          split at hs
          · simp only [Option.some.injEq] at hs
            subst hs
            simp only [Option.some.injEq, Prod.mk.injEq] at h
            obtain ⟨rfl, rfl⟩ := h
            refine ⟨⟨r1, f2, by simp [rArg], ?_, by simp [over], rfl⟩, by simp, by simp, by simp⟩
            dsimp only
            rw [has_take_CLOSED, hcl]; simp
          · rename_i herr
            have herr : has st (ERR n) = false := by simpa using herr
            split at hs
            · rename_i hh
              simp only [hcl, Bool.or_false] at hh
              simp only [Option.some.injEq] at hs
              subst hs
              simp only [fresh_one, List.head?_cons, Option.some.injEq, Prod.mk.injEq] at h
              obtain ⟨rfl, rfl⟩ := h
              refine ⟨⟨r2 rfl, f2, by simp [rCall, rArg], ?_, fun _ => ?_, rfl⟩, by simp, by simp, by simp [rCall]⟩
              · simp only [rCall]; rw [has_take_CLOSED, hcl]; simp
              · exact ef rfl rfl (by dsimp only; rw [has_take_CLOSED, hcl]) (by dsimp only; rw [has_take_HALF, hh]) (by dsimp only; rw [has_take_ERR])
                  (cnt_takeWord st)
            · rename_i hh
              have hh' : has st (HALF n) = false := by
                cases e : has st (HALF n) with
                | false => rfl
                | true => simp [e] at hh
              split at hs
              · rename_i hrx
                simp only [Option.some.injEq] at hs
                subst hs
                simp only [fresh_one, List.head?_cons, Option.some.injEq, Prod.mk.injEq] at h
                obtain ⟨rfl, rfl⟩ := h
                refine ⟨⟨r1, f2, by simp [rArg], ?_, by simp [over], rfl⟩, fun _ => ⟨rfl, ?_, ?_, .inl ?_⟩, by simp, by simp⟩
                · dsimp only; rw [has_take_CLOSED, hcl]; simp
                · dsimp only; rw [has_take_RX]; exact hrx
                · dsimp only; rw [has_take_ERR, cnt_takeWord]; simp
                · dsimp only; rw [← hhalf]; exact hh'
              · simp only [Option.some.injEq] at hs
                subst hs
                simp only [Option.some.injEq, Prod.mk.injEq] at h
                obtain ⟨rfl, rfl⟩ := h
                refine ⟨⟨r1, f2, f3, ?_, by simp [over], rfl⟩, by simp, by simp, by simp⟩
                dsimp only
                rw [has_take_CLOSED, hcl]; simp
      case pnRmw2 w =>
        have hcl := hcl rfl
        have inv := sane rfl
        have hhalf := inv.half
        simp only [rDone, Bool.or_false] at hhalf
        have hc' : has (takeWord st ||| RX n) (CLOSED n) = false := by rw [has_or, has_take_CLOSED, hcl, has_RX_CLOSED]; rfl
        simp only [gotCount, State.emit] at hs
        split at hs
        · split at hs
          all_goals
            simp only [Option.some.injEq] at hs
            subst hs
            simp only [Option.some.injEq, Prod.mk.injEq] at h
            obtain ⟨rfl, rfl⟩ := h
            refine ⟨⟨r1, f2, by simp [rArg], ?_, by simp [over], rfl⟩, by simp, by simp, by simp⟩
            dsimp only
            rw [hc']; simp
        · rename_i hh
          have hh' : has st (HALF n) = false := by simpa using hh
          split at hs
          · simp only [Option.some.injEq] at hs
            split at hs <;> subst hs
            all_goals
              simp only [fresh_one, List.head?_cons, Option.some.injEq, Prod.mk.injEq] at h
              obtain ⟨rfl, rfl⟩ := h
              refine ⟨⟨r1, f2, by simp [rArg], ?_, by simp [over], rfl⟩, by simp, by simp, by simp⟩
              dsimp only
              rw [hc']; simp
          · simp only [Option.some.injEq] at hs
            subst hs
            simp only [fresh_one, List.head?_cons, Option.some.injEq, Prod.mk.injEq] at h
            obtain ⟨rfl, rfl⟩ := h
            refine ⟨⟨r1, f2, by simp [rArg], ?_, by simp [over], rfl⟩, fun _ => ⟨rfl, ?_, ?_, .inl ?_⟩, by simp, by simp⟩
            · dsimp only; rw [hc']; simp
            · dsimp only; rw [has_or, has_RX_RX, Bool.or_true]
            · dsimp only; rw [has_or, has_take_ERR, has_RX_ERR, cnt_RX, cnt_takeWord]; simp
            · dsimp only; rw [← hhalf]; exact hh'
      case pnUndo st0 _ =>
        have hcl := hcl rfl
        have inv := sane rfl
        obtain ⟨-, hsd, -, hd0⟩ := inv.rundo rfl
        have hhalf := inv.half
        rw [hsd, Bool.true_or] at hhalf
        have h0 := lg rfl
        simp only [State.emit] at hs
        split at hs
        · simp at hs
        repeat' split at hs
        all_goals simp only [Option.some.injEq] at hs
        all_goals subst hs
        all_goals simp only [fresh_one, fresh_two, List.head?_cons, Option.some.injEq, Prod.mk.injEq] at h
        all_goals obtain ⟨rfl, rfl⟩ := h
        all_goals first
          | (refine ⟨⟨r1, by simp, by simp [rArg], ?_, by simp [over], rfl⟩, by simp, by simp, by simp⟩
             dsimp only
             rw [hcl]; simp)
          | skip
        refine ⟨⟨r2 rfl, by simp [rCall], by simp [rCall, rArg], ?_, fun _ => ?_, rfl⟩, by simp, by simp, by simp [rCall]⟩
        · simp only [rCall]; rw [hcl]; simp
        · exact ef rfl rfl hcl hhalf hd0 h0
      all_goals have ha := f5 rfl
      all_goals simp only [State.emit, State.release, dropTail] at hs
      all_goals repeat' split at hs
      all_goals first
        | (simp at hs; done)
        | simp only [Option.some.injEq] at hs
      all_goals subst hs
      all_goals simp only [Option.some.injEq, Prod.mk.injEq] at h
      all_goals obtain ⟨rfl, rfl⟩ := h
      all_goals
        refine ⟨⟨r1, ?_, by simp [rArg], by simp [rDone], fun _ => ?_, rfl⟩, by simp, by simp, by simp⟩
      all_goals first
        | exact f2
        | exact ha
        | exact fin_append (es := [_]) ha hist (by simp [isItem])
        | exact fin_append (es := [_, _]) ha hist (by simp [isItem])

/-- A receiver that sleeps while its sender is not in a call has got everything that was sent. -/
theorem sleep_rest {t : Nat} {c : State n Nat} (f : Fit t c) (sl : Sleep c) (hrest : c.spc.resting = true) :
    ¬ SenderLeft c.log ∧ recvTotal c.log = accepted n c.log ∧ recvErrs c.log = errs c.log := by
  have lg := (reach_inv f.reach).2.2
  have hid : c.spc = .idle := by
    have := sl.snd
    revert this hrest
    cases c.spc <;> simp [SPc.resting, sDone, sWk]
  have hun : errs c.log = [] := lg.unsent (by rw [hid]; rfl) (by rw [hid]; rfl)
  have hv := lg.vals
  have hcl : Event.closed ∉ c.log := fun e => by
    have := f.clo (lg.closed.1 e); rw [sl.idle] at this; simp [rDone] at this
  have h0 : cnt c.st = 0 := by
    rcases Nat.eq_zero_or_pos (cnt c.st) with e | e
    · exact e
    · have := sl.dat (.inl (by omega)); rw [hid] at this; simp [sRef, sWk] at this
  refine ⟨?_, ?_, ?_⟩
  · rintro (h | h)
    · exact h hun
    · have := (lg.drop1 h).2; rw [hid] at this; simp [sDrop, sGone] at this
  · obtain ⟨as, h⟩ := f.reach
    have := C24_open_partial h hcl
    rw [h0] at this; exact this
  · rw [hun] at hv ⊢
    have := congrArg List.length hv
    simp only [List.length_append, List.length_nil] at this
    exact List.eq_nil_of_length_eq_zero (by omega)

theorem recv_sane {t : Nat} {c : State n Nat} (v : Inv c) (ap : Apart c) : ∃ c' r, pulseRecv t c = some (c', r) ∧ Inv c' := by
  obtain ⟨c1, h1, v1⟩ := step_inv v ap .rStep
  have h1' : rStep c = some c1 := h1
  unfold pulseRecv
  split
  · rename_i e
    exact ⟨_, _, rfl, rCall_inv v (by rw [e]; rfl) _⟩
  · rw [h1']
    simp only
    split
    · rename_i e
      split
      · exact ⟨_, _, rfl, v1⟩
      · exact ⟨_, _, rfl, rCall_inv v1 (by rw [e]; rfl) _⟩
      · exact ⟨_, _, rfl, v1⟩
    · exact ⟨_, _, rfl, v1⟩
    · exact ⟨_, _, rfl, v1⟩

end Verif.Pulse.Read
