import Verif.Exec.ChanSpec
import Verif.Oneshot.LogRecv
/-! # One channel whose receiver is awaited by a task -/
namespace Verif.Exec.Chan
open Verif.Spsc
open Verif.Oneshot (sends received SenderLeft Apart RPc SPc Event RX CLOSED HALF DATA sDone sWk rDone)

/-- The waker that a poll in progress uses. -/
def rArg : RPc → Option Nat
  | .poRmw w | .poWrite w | .poRmw2 w => some w
  | _ => none

/-- The receiver is ready and its drop has begun. -/
def over : RPc → Bool
  | .drRmw | .drData _ | .drWaker _ | .drFree | .gone => true
  | _ => false

/-- A call that is never made by a task. -/
def other : RPc → Bool
  | .clRmw | .clWaker _ | .trRmw | .itLoad => true
  | _ => false

/-- The state of a channel whose receiver is polled with the waker of thread `t`. -/
structure Fit (t : Nat) (c : Ch) : Prop where
  reach : ∃ as, Oneshot.run (Oneshot.init Nat) as = some c
  wak : ∀ w, c.rxw = some w → w = t
  arg : ∀ w, rArg c.rpc = some w → w = t
  clo : has c.st CLOSED = true → rDone c.rpc = true
  una : over c.rpc = false → received c.log = []
  ans : over c.rpc = true → received c.log ≠ [] ∨ Event.sDropped ∈ c.log
  oth : other c.rpc = false

/-- The receiver has returned `Poll::Pending` and will be woken. -/
structure Sleep (c : Ch) : Prop where
  idle : c.rpc = .idle
  rx : has c.st RX = true
  snd : sDone c.spc = false ∨ sWk c.spc = true

theorem reach_step {c c' : Ch} {a : Oneshot.Act Nat} (h : ∃ as, Oneshot.run (Oneshot.init Nat) as = some c) (hs : Oneshot.step c a = some c') :
    ∃ as, Oneshot.run (Oneshot.init Nat) as = some c' := by
  obtain ⟨as, h⟩ := h
  refine ⟨as ++ [a], ?_⟩
  have : ∀ (as : List (Oneshot.Act Nat)) (s : Ch), Oneshot.run s as = some c → Oneshot.run s (as ++ [a]) = some c' := by
    intro as
    induction as with
    | nil =>
      intro s h
      simp only [Oneshot.run, Option.some.injEq] at h
      subst h
      simp only [List.nil_append, Oneshot.run, hs]
    | cons b bs ih =>
      intro s h
      simp only [Oneshot.run, List.cons_append] at h ⊢
      split at h
      · simp at h
      · exact ih _ h
  exact this as _ h

/-- What is known about every reachable channel. -/
theorem reach_inv {c : Ch} (h : ∃ as, Oneshot.run (Oneshot.init Nat) as = some c) :
    (Oneshot.Inv c ∨ Oneshot.Doomed c) ∧ Oneshot.LogA c := by
  obtain ⟨as, h⟩ := h
  exact Oneshot.run_ind Oneshot.step_logA (.inl (Oneshot.init_inv Nat)) (Oneshot.init_logA Nat) h

/-- While the receiver has not left, the channel is sane. -/
theorem reach_sane {c : Ch} (h : ∃ as, Oneshot.run (Oneshot.init Nat) as = some c) (hr : rDone c.rpc = false) : Oneshot.Inv c := by
  rcases (reach_inv h).1 with i | d
  · exact i
  · rcases d.2 with ⟨-, d⟩ | ⟨d, -⟩ <;> cases hh : c.rpc <;> simp [hh, rDone, RPc.leaving, Oneshot.rGone] at hr d

theorem fit_init (t : Nat) : Fit t (Oneshot.init Nat) :=
  ⟨⟨[], rfl⟩, by simp [Oneshot.init], by simp [Oneshot.init, rArg], by simp [Oneshot.init, has], by simp [Oneshot.init, received],
    by simp [Oneshot.init, over], rfl⟩

/-- The steps of the sender, as far as they concern the receiver. -/
structure SRel (c c' : Ch) : Prop where
  rpc : c'.rpc = c.rpc
  rxw : ∀ w, c'.rxw = some w → c.rxw = some w
  clo : has c'.st CLOSED = has c.st CLOSED
  rcv : received c'.log = received c.log
  drp : Event.sDropped ∈ c.log → Event.sDropped ∈ c'.log

theorem sCall_rel {c c' : Ch} {op : Oneshot.SOp Nat} (h : Oneshot.step c (.sCall op) = some c') : SRel c c' := by
  simp only [Oneshot.step] at h
  split at h <;> simp only [Option.some.injEq] at h <;> subst h
  · cases op <;> constructor <;> simp [Oneshot.sCall, Oneshot.State.emit, received]
  · exact ⟨rfl, fun _ h => h, rfl, rfl, id⟩

theorem sStep_rel {c c' : Ch} (h : Oneshot.step c .sStep = some c') : SRel c c' := by
  simp only [Oneshot.step, Oneshot.sStep] at h
  split at h
  · simp only [Option.some.injEq] at h; subst h; exact ⟨rfl, fun _ h => h, rfl, rfl, id⟩
  split at h
  · simp at h
  split at h
  all_goals (repeat' (split at h))
  all_goals first
    | (simp at h; done)
    | skip
  all_goals simp only [Option.some.injEq] at h
  all_goals subst h
  all_goals try simp only [Oneshot.sendTail]
  all_goals (repeat' split)
  all_goals (constructor <;> simp_all [Oneshot.State.emit, Oneshot.State.release, received])
  all_goals simp_all [Oneshot.has_or, Oneshot.has_DATA_CLOSED, Oneshot.has_HALF_CLOSED, Oneshot.has_TX_CLOSED]

theorem fit_sender {t : Nat} {c c' : Ch} (f : Fit t c) (r : SRel c c') (hs : ∃ as, Oneshot.run (Oneshot.init Nat) as = some c') : Fit t c' := by
  obtain ⟨f1, f2, f3, f4, f5, f6, f7⟩ := f
  obtain ⟨r1, r2, r3, r4, r5⟩ := r
  refine ⟨hs, fun w h => f2 w (r2 w h), by rw [r1]; exact f3, by rw [r1, r3]; exact f4, by rw [r1, r4]; exact f5, ?_, by rw [r1]; exact f7⟩
  rw [r1, r4]
  intro h
  exact (f6 h).imp id r5

theorem sleep_call {c c' : Ch} {op : Oneshot.SOp Nat} (sl : Sleep c) (h : Oneshot.step c (.sCall op) = some c') : Sleep c' := by
  obtain ⟨s1, s2, s3⟩ := sl
  simp only [Oneshot.step] at h
  split at h <;> simp only [Option.some.injEq] at h <;> subst h
  · rename_i hi
    have : c.spc = .idle := by cases hh : c.spc <;> simp [hh, SPc.isIdle] at hi; rfl
    cases op <;> exact ⟨s1, s2, .inl rfl⟩
  · exact ⟨s1, s2, s3⟩

/-- The sender of a sleeping receiver leaves it asleep or wakes it. -/
theorem sleep_send {t : Nat} {c c' : Ch} (f : Fit t c) (sl : Sleep c) (h : Oneshot.step c .sStep = some c') : Sleep c' ∨ woken c c' = some t := by
  obtain ⟨s1, s2, s3⟩ := sl
  have inv := reach_sane f.reach (by rw [s1]; rfl)
  have hcl : has c.st CLOSED = false := by
    cases e : has c.st CLOSED with
    | false => rfl
    | true => have := f.clo e; rw [s1] at this; simp [rDone] at this
  have hwak := f.wak
  unfold Oneshot.Inv at inv
  have hfail := inv.sfail
  have hfirst := inv.first1
  have hrxw := inv.rxw
  obtain ⟨st, data, rxw, txw, freed, spc, rpc, log⟩ := c
  simp only [Oneshot.step, Oneshot.sStep] at h
  dsimp only at *
  subst s1
  split at h
  · simp only [Option.some.injEq] at h; subst h; exact .inl ⟨rfl, s2, s3⟩
  split at h
  · simp at h
  cases spc <;> simp only [sDone, sWk] at s3
  case sendWaker st0 hrest =>
    simp only at h
    split at h
    · simp at h
    · rename_i w
      have hc0 : has st0 CLOSED = false := by
        cases e : has st0 CLOSED with
        | false => rfl
        | true => have := hfail (by simpa [Oneshot.sFail] using e); rw [hcl] at this; simp at this
      simp only [hc0, Oneshot.sendTail, Bool.false_eq_true, ↓reduceIte, Option.some.injEq] at h
      subst h
      right
      rw [← hwak w rfl]
      simp [woken, Oneshot.State.emit, show log.length + 1 + 1 - log.length = 2 by omega]
  case drWaker st0 hrest =>
    simp only at h
    split at h
    · simp at h
    · rename_i w
      have hc0 : has st0 HALF = false := by
        cases e : has st0 HALF with
        | false => rfl
        | true => have := hfirst (by simp [Oneshot.sSt, e]); simp [rDone] at this
      simp only [hc0, Bool.false_eq_true, ↓reduceIte, Option.some.injEq] at h
      subst h
      right
      rw [← hwak w rfl]
      simp [woken, Oneshot.State.emit]
  all_goals (try (simp at s3; done))
  all_goals (simp only at h)
  all_goals (repeat' (split at h))
  all_goals first
    | (simp at h; done)
    | skip
  all_goals simp only [Option.some.injEq] at h
  all_goals subst h
  all_goals first
    | (left; exact ⟨rfl, s2, .inl rfl⟩)
    | (left; refine ⟨rfl, ?_, ?_⟩ <;> simp_all [Oneshot.has_or, Oneshot.State.emit, sDone, sWk]; done)
    | (simp_all [Oneshot.State.emit]; done)
    | skip

/-- A sender that has left without leaving a value was dropped. -/
theorem cancel_dropped {c : Ch} (inv : Oneshot.Inv c) (l : Oneshot.LogA c) (hd : sDone c.spc = true) (hn : c.data = none)
    (hr : received c.log = []) (hcl : has c.st CLOSED = false) : Event.sDropped ∈ c.log := by
  have hrd : rDone c.rpc = false := by
    cases e : rDone c.rpc with
    | false => rfl
    | true => have := inv.closed e; rw [hcl] at this; simp at this
  have hv := l.vals
  have hdv : Oneshot.droppedValues c.log = [] := Classical.byContradiction fun e => by
    have := l.rdrop e; rw [hrd] at this; simp at this
  have hret : Oneshot.returned c.log = [] := Classical.byContradiction fun e => by
    have := l.closed.1 (l.ret e).2.1; rw [hcl] at this; simp at this
  have hsv : Oneshot.sVal c.spc = [] := by
    have h1 := inv.first1
    rw [hrd] at h1
    cases e : c.spc <;> simp_all [Oneshot.sVal, sDone, Oneshot.sSt]
  rw [hsv, hn, hr, hdv, hret] at hv
  simp at hv
  rcases (Oneshot.sFacts2 c.spc).don hd with h | h | h
  · exact absurd hv (l.sent h)
  · exact l.drop2 h
  · exact (l.gone h).elim id fun h => absurd hv h.1

/-- One access of an awaited receiver. -/
theorem recv_fit {t : Nat} {c c' : Ch} {r : Res} (f : Fit t c) (hg : c.rpc ≠ .gone) (h : recvStep t c = some (c', r)) :
    Fit t c' ∧ (r = .pending → Sleep c') ∧ (r = .ready → c'.rpc = .gone) ∧ (r = .more → c'.rpc ≠ .gone) := by
  by_cases hi : c.rpc = .idle
  · have hs : Oneshot.step c (.rCall (.poll t)) = some (Oneshot.rCall c (.poll t)) := by simp [Oneshot.step, hi, RPc.isIdle]
    simp only [recvStep, hi, Option.some.injEq, Prod.mk.injEq] at h
    obtain ⟨rfl, rfl⟩ := h
    obtain ⟨f1, f2, f3, f4, f5, f6, f7⟩ := f
    rw [hi] at f4 f5
    exact ⟨⟨reach_step f1 hs, f2, by simp [Oneshot.rCall, rArg], f4, f5, by simp [Oneshot.rCall, over], rfl⟩, by simp, by simp,
      by simp [Oneshot.rCall]⟩
  · have hq : recvStep t c = (match Oneshot.rStep c with
        | none => none
        | some c' =>
          match c'.rpc with
          | .idle =>
            match c'.log with
            | .pending _ :: _ => some (c', .pending)
            | _ => some (Oneshot.rCall c' .drop, .more)
          | .gone => some (c', .ready)
          | _ => some (c', .more)) := by
      unfold recvStep
      split
      · rename_i e; exact absurd e hi
      · rfl
    rw [hq] at h
    clear hq
    cases hs : Oneshot.rStep c with
    | none => rw [hs] at h; simp at h
    | some c1 =>
      rw [hs] at h
      simp only at h
      have r1 : ∃ as, Oneshot.run (Oneshot.init Nat) as = some c1 := reach_step (a := .rStep) f.reach hs
      have r2 : c1.rpc = .idle → ∃ as, Oneshot.run (Oneshot.init Nat) as = some (Oneshot.rCall c1 .drop) := fun e =>
        reach_step (a := .rCall .drop) r1 (by simp [Oneshot.step, e, RPc.isIdle])
      have sane := reach_sane f.reach
      have lg := (reach_inv f.reach).2
      have canc := fun hrd => cancel_dropped (sane hrd) lg
      obtain ⟨f1, f2, f3, f4, f5, f6, f7⟩ := f
      obtain ⟨st, data, rxw, txw, freed, spc, rpc, log⟩ := c
      simp only [Oneshot.rStep] at hs
      dsimp only at *
      split at hs
      · rename_i hres
        cases rpc <;> simp [RPc.resting] at hres hi hg
      split at hs
      · simp at hs
      cases rpc
      case idle => exact absurd rfl hi
      case gone => exact absurd rfl hg
      case clRmw => simp [other] at f7
      case clWaker => simp [other] at f7
      case trRmw => simp [other] at f7
      case itLoad => simp [other] at f7
      case read =>
        simp only at hs
        split at hs
        · simp at hs
        · rename_i v
          simp only [Option.some.injEq] at hs
          subst hs
          simp only [Oneshot.State.emit, Option.some.injEq, Prod.mk.injEq] at h
          obtain ⟨rfl, rfl⟩ := h
          have := r2 rfl
          refine ⟨⟨this, f2, by simp [Oneshot.rCall, rArg], ?_, by simp [Oneshot.rCall, over], ?_, rfl⟩, by simp, by simp, by simp [Oneshot.rCall]⟩
          · intro e; exact absurd (f4 e) (by simp [rDone])
          · intro _; left; simp [Oneshot.rCall, received]
      case poRmw w =>
        have hcl : has st CLOSED = false := by
          cases e : has st CLOSED with
          | false => rfl
          | true => exact absurd (f4 e) (by simp [rDone])
        have inv := sane rfl
        have hhalf := inv.half
        simp only [rDone, Bool.or_false] at hhalf
        simp only at hs
        split at hs
        · simp only [Option.some.injEq] at hs
          subst hs
          simp only [Option.some.injEq, Prod.mk.injEq] at h
          obtain ⟨rfl, rfl⟩ := h
          refine ⟨⟨r1, f2, by simp [rArg], ?_, fun _ => f5 rfl, by simp [over], rfl⟩, by simp, by simp, by simp⟩
          rw [Oneshot.has_clear_CLOSED, hcl]; simp
        · rename_i hdata
          have hdata' : has st DATA = false := by simpa using hdata
          split at hs
          · rename_i hh
            simp only [hcl, Bool.or_false] at hh
            simp only [Option.some.injEq] at hs
            subst hs
            simp only [Oneshot.State.emit, Option.some.injEq, Prod.mk.injEq] at h
            obtain ⟨rfl, rfl⟩ := h
            have := r2 rfl
            have hsd : sDone spc = true := by rw [← hhalf]; exact hh
            have hnone : data = none := by
              have := inv.data
              have hf := inv.sfail
              rw [hcl] at hf
              simp only [Oneshot.rRead, hdata', Bool.false_and, Bool.or_false] at this
              have h1 : Oneshot.sWritten spc = false := by cases spc <;> simp_all [Oneshot.sWritten, sDone]
              have h2 : Oneshot.sFail spc = false := by
                cases e : Oneshot.sFail spc with
                | false => rfl
                | true => simp [e] at hf
              rw [h1, h2] at this
              cases data <;> simp_all
            have hdr := canc rfl hsd hnone (f5 rfl) hcl
            refine ⟨⟨this, f2, by simp [Oneshot.rCall, rArg], ?_, by simp [Oneshot.rCall, over], ?_, rfl⟩, by simp, by simp, by simp [Oneshot.rCall]⟩
            · simp only [Oneshot.rCall]; rw [Oneshot.has_clear_CLOSED, hcl]; simp
            · intro _; right; simp [Oneshot.rCall, hdr]
          · rename_i hh
            have hh' : has st HALF = false := by
              cases e : has st HALF with
              | false => rfl
              | true => simp [e] at hh
            split at hs
            · rename_i hrx
              simp only [Option.some.injEq] at hs
              subst hs
              simp only [Oneshot.State.emit, Option.some.injEq, Prod.mk.injEq] at h
              obtain ⟨rfl, rfl⟩ := h
              refine ⟨⟨r1, f2, by simp [rArg], ?_, fun _ => ?_, by simp [over], rfl⟩, fun _ => ⟨rfl, ?_, .inl ?_⟩, by simp, by simp⟩
              · dsimp only; rw [Oneshot.has_clear_CLOSED, hcl]; simp
              · simpa [received] using f5 rfl
              · dsimp only; rw [Oneshot.has_clear_RX]; exact hrx
              · dsimp only; rw [← hhalf]; exact hh'
            · simp only [Option.some.injEq] at hs
              subst hs
              simp only [Option.some.injEq, Prod.mk.injEq] at h
              obtain ⟨rfl, rfl⟩ := h
              refine ⟨⟨r1, f2, f3, ?_, fun _ => f5 rfl, by simp [over], rfl⟩, by simp, by simp, by simp⟩
              rw [Oneshot.has_clear_CLOSED, hcl]; simp
      case poWrite w =>
        simp only at hs
        split at hs
        · simp at hs
        · simp only [Option.some.injEq] at hs
          subst hs
          simp only [Oneshot.State.emit, Option.some.injEq, Prod.mk.injEq] at h
          obtain ⟨rfl, rfl⟩ := h
          refine ⟨⟨r1, ?_, f3, ?_, fun _ => ?_, by simp [over], rfl⟩, by simp, by simp, by simp⟩
          · intro u hu
            simp only [Option.some.injEq] at hu
            exact f3 u (by rw [← hu]; rfl)
          · intro e; exact absurd (f4 e) (by simp [rDone])
          · simpa [received] using f5 rfl
      case poRmw2 w =>
        have hcl : has st CLOSED = false := by
          cases e : has st CLOSED with
          | false => rfl
          | true => exact absurd (f4 e) (by simp [rDone])
        have inv := sane rfl
        have hhalf := inv.half
        simp only [rDone, Bool.or_false] at hhalf
        simp only at hs
        split at hs
        · simp only [Option.some.injEq] at hs
          subst hs
          simp only [Option.some.injEq, Prod.mk.injEq] at h
          obtain ⟨rfl, rfl⟩ := h
          refine ⟨⟨r1, f2, by simp [rArg], ?_, fun _ => f5 rfl, by simp [over], rfl⟩, by simp, by simp, by simp⟩
          rw [Oneshot.has_or, Oneshot.has_clear_CLOSED, hcl, Oneshot.has_RX_CLOSED]; simp
        · rename_i hh
          have hh' : has st HALF = false := by simpa using hh
          simp only [Option.some.injEq] at hs
          subst hs
          simp only [Oneshot.State.emit, Option.some.injEq, Prod.mk.injEq] at h
          obtain ⟨rfl, rfl⟩ := h
          refine ⟨⟨r1, f2, by simp [rArg], ?_, fun _ => ?_, by simp [over], rfl⟩, fun _ => ⟨rfl, ?_, .inl ?_⟩, by simp, by simp⟩
          · dsimp only; rw [Oneshot.has_or, Oneshot.has_clear_CLOSED, hcl, Oneshot.has_RX_CLOSED]; simp
          · simpa [received] using f5 rfl
          · dsimp only; rw [Oneshot.has_or, Oneshot.has_RX_RX, Bool.or_true]
          · dsimp only; rw [← hhalf]; exact hh'
      case poUndo st0 _ =>
        have hcl : has st CLOSED = false := by
          cases e : has st CLOSED with
          | false => rfl
          | true => exact absurd (f4 e) (by simp [rDone])
        have inv := sane rfl
        simp only at hs
        split at hs
        · simp at hs
        · rename_i w
          split at hs
          · simp only [Option.some.injEq] at hs
            subst hs
            simp only [Oneshot.State.emit, Option.some.injEq, Prod.mk.injEq] at h
            obtain ⟨rfl, rfl⟩ := h
            refine ⟨⟨r1, by simp, by simp [rArg], ?_, fun _ => ?_, by simp [over], rfl⟩, by simp, by simp, by simp⟩
            · rw [hcl]; simp
            · simpa [received] using f5 rfl
          · rename_i hdata
            have hdata' : has st0 DATA = false := by simpa using hdata
            simp only [Option.some.injEq] at hs
            subst hs
            simp only [Oneshot.State.emit, Option.some.injEq, Prod.mk.injEq] at h
            obtain ⟨rfl, rfl⟩ := h
            have := r2 rfl
            obtain ⟨-, hsd, -, hd0⟩ := inv.rundo rfl
            have hnone : data = none := by
              have := inv.data
              have hf := inv.sfail
              rw [hcl] at hf
              simp only [Oneshot.rRead, hd0, hdata', Bool.false_and, Bool.or_false] at this
              have h1 : Oneshot.sWritten spc = false := by cases spc <;> simp_all [Oneshot.sWritten, sDone]
              have h2 : Oneshot.sFail spc = false := by
                cases e : Oneshot.sFail spc with
                | false => rfl
                | true => simp [e] at hf
              rw [h1, h2] at this
              cases data <;> simp_all
            have hdr := canc rfl hsd hnone (f5 rfl) hcl
            refine ⟨⟨this, by simp [Oneshot.rCall], by simp [Oneshot.rCall, rArg], ?_, by simp [Oneshot.rCall, over], ?_, rfl⟩, by simp, by simp,
              by simp [Oneshot.rCall]⟩
            · simp only [Oneshot.rCall]; rw [hcl]; simp
            · intro _; right; simp [Oneshot.rCall, hdr]
      case drRmw =>
        have ha := f6 rfl
        simp only at hs
        split at hs
        · simp only [Oneshot.State.emit, Option.some.injEq] at hs
          subst hs
          simp only [Option.some.injEq, Prod.mk.injEq] at h
          obtain ⟨rfl, rfl⟩ := h
          exact ⟨⟨r1, f2, by simp [rArg], by simp [rDone], by simp [over], fun _ => by simpa [received] using ha, rfl⟩, by simp, by simp, by simp⟩
        · simp only [Oneshot.State.emit, Oneshot.dropTail] at hs
          repeat' split at hs
          all_goals simp only [Option.some.injEq] at hs
          all_goals subst hs
          all_goals simp only [Option.some.injEq, Prod.mk.injEq] at h
          all_goals obtain ⟨rfl, rfl⟩ := h
          all_goals
            exact ⟨⟨r1, f2, by simp [rArg], by simp [rDone], by simp [over], fun _ => by simpa [received] using ha, rfl⟩, by simp, by simp, by simp⟩
      case drData st0 _ =>
        have ha := f6 rfl
        simp only at hs
        split at hs
        · simp at hs
        · simp only [Oneshot.State.emit, Oneshot.dropTail] at hs
          repeat' split at hs
          all_goals simp only [Option.some.injEq] at hs
          all_goals subst hs
          all_goals simp only [Option.some.injEq, Prod.mk.injEq] at h
          all_goals obtain ⟨rfl, rfl⟩ := h
          all_goals
            exact ⟨⟨r1, f2, by simp [rArg], by simp [rDone], by simp [over], fun _ => by simpa [received] using ha, rfl⟩, by simp, by simp, by simp⟩
      case drWaker st0 _ =>
        have ha := f6 rfl
        simp only at hs
        split at hs
        · simp at hs
        · simp only [Oneshot.State.emit] at hs
          repeat' split at hs
          all_goals simp only [Option.some.injEq] at hs
          all_goals subst hs
          all_goals simp only [Option.some.injEq, Prod.mk.injEq] at h
          all_goals obtain ⟨rfl, rfl⟩ := h
          all_goals
            exact ⟨⟨r1, f2, by simp [rArg], by simp [rDone], by simp [over], fun _ => by simpa [received] using ha, rfl⟩, by simp, by simp, by simp⟩
      case drFree =>
        have ha := f6 rfl
        simp only [Oneshot.State.emit, Oneshot.State.release, Option.some.injEq] at hs
        subst hs
        simp only [Option.some.injEq, Prod.mk.injEq] at h
        obtain ⟨rfl, rfl⟩ := h
        exact ⟨⟨r1, f2, by simp [rArg], by simp [rDone], by simp [over], fun _ => by simpa [received] using ha, rfl⟩, by simp, by simp, by simp⟩

end Verif.Exec.Chan
