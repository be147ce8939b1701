import Verif.Exec.StrSpec
import Verif.Ring.Props
/-! # A ring channel whose receiver is read by a task -/
namespace Verif.Ring.Read
open Verif.Spsc
open Verif.Exec.Str (ringRecv fresh ringWake fresh_nil fresh_one fresh_two Merge)

variable {k cap : Nat} {N : Prop}

/-- The waker that a poll in progress uses. -/
def rArg : RPc k → Option Nat
  | .pnRmw w | .pnWrite w | .pnRmw2 w => some w
  | _ => none

/-- The stream has ended and the drop of the receiver has begun. -/
def over : RPc k → Bool
  | .drRmw | .drErr _ | .drWaker _ | .drFree | .gone => true
  | _ => false

/-- Where a task never is. -/
def other : RPc k → Bool
  | .clRmw | .clWaker _ | .tnRmw | .itLoad | .drSlot _ _ => true
  | _ => false

/-- A value or an error is passed on. -/
def isItem : Event Nat Nat → Bool
  | .push _ | .claimRx | .recv _ | .claimTx | .overwrote _ | .errCall _ | .recvErr _ => true
  | _ => false

/-- Everything was received and nothing will follow. -/
structure Fin (N : Prop) (log : List (Event Nat Nat)) : Prop where
  left : SenderLeft log
  none : npend log = 0
  vals : N → Merge (pushed log) (received log) (overwritten log)
  err : recvErrs log = errs log

/-- The state of a channel whose receiver is polled with the waker of thread `t`. -/
structure Fit (cap : Nat) (N : Prop) (t : Nat) (c : State k Nat Nat) : Prop where
  reach : ∃ as, run cap (init k Nat Nat) as = some c ∧ (N → Always cap (fun s => ¬ Clash cap s) (init k Nat Nat) as)
  wak : ∀ w, c.rxw = some w → w = t
  arg : ∀ w, rArg c.rpc = some w → w = t
  clo : has c.st (CLOSED k) = true → rDone c.rpc = true
  ans : over c.rpc = true → Fin N c.log ∧ sDone c.spc = true
  oth : other c.rpc = false

/-- The receiver has returned `Poll::Pending` and will be woken. -/
structure Sleep (c : State k Nat Nat) : Prop where
  idle : c.rpc = .idle
  rx : has c.st (RX k) = true
  dat : 0 < len c.st ∨ has c.st (ERR k) = true → sRef c.spc = true ∨ sWk c.spc = true
  snd : sDone c.spc = false ∨ sWk c.spc = true

/-- A reachable state. -/
def Reach (cap : Nat) (N : Prop) (c : State k Nat Nat) : Prop :=
  ∃ as, run cap (init k Nat Nat) as = some c ∧ (N → Always cap (fun s => ¬ Clash cap s) (init k Nat Nat) as)

theorem reach_step {c c' : State k Nat Nat} {a : Act Nat Nat} (h : Reach cap N c) (hs : step cap c a = some c') (hn : N → ¬ Clash cap c') :
    Reach cap N c' := by
  obtain ⟨as, h, al0⟩ := h
  refine ⟨as ++ [a], by rw [run_append, h]; simp [run, hs], fun hN => ?_⟩
  have al := al0 hN
  clear al0
  revert h al
  generalize init k Nat Nat = s
  intro h al
  induction as generalizing s with
  | nil =>
    simp only [run, Option.some.injEq] at h
    subst h
    refine ⟨al, fun s' h' => ?_⟩
    rw [hs] at h'
    simp only [Option.some.injEq] at h'
    subst h'
    exact hn hN
  | cons b bs ih =>
    simp only [run] at h
    split at h
    · simp at h
    · rename_i s1 h1
      refine ⟨al.1, fun s' h' => ?_⟩
      rw [h1] at h'
      simp only [Option.some.injEq] at h'
      subst h'
      exact ih s1 h (al.2 s1 h1)

theorem noclash_slots {c : State k Nat Nat} (h : c.rpc.slots cap = []) : ¬ Clash cap c := by
  rintro ⟨i, -, hi⟩
  rw [h] at hi
  simp at hi

/-- What is known about every reachable channel. -/
theorem reach_inv (h1 : 1 < cap) (hcap : cap < 2 ^ k) {c : State k Nat Nat} (h : Reach cap N c) :
    (Inv cap c ∨ Doomed c) ∧ InvL cap c ∧ LogA c := by
  obtain ⟨as, h, -⟩ := h
  have := reach h1 hcap h
  exact ⟨this.1, this.2.1, this.2.2.1⟩

theorem reach_con (h1 : 1 < cap) (hcap : cap < 2 ^ k) {c : State k Nat Nat} (h : Reach cap N c) (hN : N) : InvC cap c := by
  obtain ⟨as, h, al⟩ := h
  exact (reachC h1 hcap (al hN) h).2

/-- While the receiver has not left, the channel is sane. -/
theorem reach_sane (h1 : 1 < cap) (hcap : cap < 2 ^ k) {c : State k Nat Nat} (h : Reach cap N c) (hr : rDone c.rpc = false) : Inv cap c := by
  rcases (reach_inv h1 hcap h).1 with i | d
  · exact i
  · rcases d.2 with ⟨-, d⟩ | ⟨d, -⟩ <;> cases hh : c.rpc <;> simp [hh, rDone, RPc.leaving, rGone] at hr d

theorem fit_init (t : Nat) : Fit cap N t (init k Nat Nat) :=
  ⟨⟨[], rfl, fun _ => noclash_slots rfl⟩, by simp [init], by simp [init, rArg], by simp [init, has_zero], by simp [init, over], rfl⟩

/-- After the end of the stream, only the drops of the two ends follow. -/
theorem fin_append {es l : List (Event Nat Nat)} (f : Fin N l) (hi : ∀ e ∈ es, isItem e = false) : Fin N (es ++ l) := by
  induction es with
  | nil => exact f
  | cons e es ih =>
    obtain ⟨f1, f2, f3, f4⟩ := ih fun e he => hi e (by simp [he])
    have hne := hi e (by simp)
    cases e <;> first
      | (simp [isItem] at hne; done)
      | exact ⟨left_tail f1, f2, f3, f4⟩
      | exact ⟨left_tail f1, npend_claimAll _, f3, f4⟩

/-- The steps of the sender, as far as they concern the receiver. -/
structure SRel (c c' : State k Nat Nat) : Prop where
  rpc : c'.rpc = c.rpc
  rxw : ∀ w, c'.rxw = some w → c.rxw = some w
  clo : has c'.st (CLOSED k) = has c.st (CLOSED k)
  log : sDone c.spc = true → sDone c'.spc = true ∧ ∃ es, c'.log = es ++ c.log ∧ ∀ e ∈ es, isItem e = false

theorem sCall_rel {c c' : State k Nat Nat} {op : SOp Nat Nat} (h : step cap c (.sCall op) = some c') : SRel c c' := by
  simp only [step] at h
  split at h <;> simp only [Option.some.injEq] at h <;> subst h
  · rename_i hi
    have hd : ¬ sDone c.spc = true := by cases e : c.spc <;> simp [e, SPc.isIdle, sDone] at hi ⊢
    cases op <;> exact ⟨rfl, fun _ h => h, rfl, fun h => absurd h hd⟩
  · exact ⟨rfl, fun _ h => h, rfl, fun h => ⟨h, [], rfl, by simp⟩⟩

theorem sStep_rel {c c' : State k Nat Nat} (h : step cap c .sStep = some c') : SRel c c' := by
  simp only [step, sStep] at h
  split at h
  · simp only [Option.some.injEq] at h; subst h; exact ⟨rfl, fun _ h => h, rfl, fun h => ⟨h, [], rfl, by simp⟩⟩
  split at h
  · simp at h
  obtain ⟨st, buf, err, rxw, txw, freed, spc, rpc, log⟩ := c
  cases spc <;> simp only [owMid, errTail, State.emit, State.release] at h
  all_goals (repeat' (split at h))
  all_goals first
    | (simp at h; done)
    | skip
  all_goals simp only [Option.some.injEq] at h
  all_goals subst h
  all_goals refine ⟨rfl, ?_, ?_, ?_⟩
  all_goals first
    | (show ∀ w, _ = some w → _; first | exact fun _ h => h | (intro w h; simp at h; done))
    | (show _ → _ ∧ _; first
        | (intro h; simp [sDone] at h; done)
        | exact fun _ => ⟨rfl, [], rfl, by simp⟩
        | exact fun _ => ⟨rfl, [_], rfl, by simp [isItem]⟩
        | exact fun _ => ⟨rfl, [_, _], rfl, by simp [isItem]⟩)
    | skip
  all_goals dsimp only
  all_goals (try simp only [has_or, has_ite, has_zero, has_HALF_CLOSED, has_ERR_CLOSED, Bool.or_false, ite_self,
    has_setKind_CLOSED, has_claimIfFull_CLOSED, has_addLength_CLOSED])

theorem fit_sender {t : Nat} {c c' : State k Nat Nat} (f : Fit cap N t c) (r : SRel c c') (hs : Reach cap N c') : Fit cap N t c' := by
  obtain ⟨f1, f2, f3, f4, f5, f6⟩ := f
  obtain ⟨r1, r2, r3, r4⟩ := r
  refine ⟨hs, fun w h => f2 w (r2 w h), by rw [r1]; exact f3, by rw [r1, r3]; exact f4, ?_, by rw [r1]; exact f6⟩
  rw [r1]
  intro h
  obtain ⟨h5, h6⟩ := f5 h
  obtain ⟨h7, es, h8, h9⟩ := r4 h6
  rw [h8]
  exact ⟨fin_append h5 h9, h7⟩

theorem fit_call {t : Nat} {c c' : State k Nat Nat} {op : SOp Nat Nat} (f : Fit cap N t c) (h : step cap c (.sCall op) = some c')
    (hn : N → ¬ Clash cap c') : Fit cap N t c' :=
  fit_sender f (sCall_rel h) (reach_step f.reach h hn)

theorem fit_send {t : Nat} {c c' : State k Nat Nat} (f : Fit cap N t c) (h : step cap c .sStep = some c') (hn : N → ¬ Clash cap c') :
    Fit cap N t c' :=
  fit_sender f (sStep_rel h) (reach_step f.reach h hn)

theorem sleep_call {c c' : State k Nat Nat} {op : SOp Nat Nat} (sl : Sleep c) (h : step cap c (.sCall op) = some c') : Sleep c' := by
  obtain ⟨s1, s2, s3, s4⟩ := sl
  simp only [step] at h
  split at h <;> simp only [Option.some.injEq] at h <;> subst h
  · rename_i hi
    obtain ⟨st, buf, err, rxw, txw, freed, spc, rpc, log⟩ := c
    cases spc <;> simp [SPc.isIdle] at hi
    cases op <;> exact ⟨s1, s2, fun h => absurd (s3 h) (by simp [sRef, sWk]), .inl rfl⟩
  · exact ⟨s1, s2, s3, s4⟩

/-- The sender of a sleeping receiver leaves it asleep or wakes it. -/
theorem sleep_send (h1 : 1 < cap) (hcap : cap < 2 ^ k) {t : Nat} {c c' : State k Nat Nat} (f : Fit cap N t c) (sl : Sleep c)
    (h : step cap c .sStep = some c') : Sleep c' ∨ (fresh c.log c'.log).findSome? ringWake = some t := by
  obtain ⟨s1, s2, s3, s4⟩ := sl
  have inv := reach_sane h1 hcap f.reach (by rw [s1]; rfl)
  have hcl : has c.st (CLOSED k) = false := by
    cases e : has c.st (CLOSED k) with
    | false => rfl
    | true => have := f.clo e; rw [s1] at this; simp [rDone] at this
  have hwak := f.wak
  unfold Inv at inv
  have hfail := inv.sfail
  have hfirst := inv.first1
  obtain ⟨st, buf, err, rxw, txw, freed, spc, rpc, log⟩ := c
  simp only [step, sStep] at h
  dsimp only at *
  subst s1
  split at h
  · simp only [Option.some.injEq] at h; subst h; exact .inl ⟨rfl, s2, s3, s4⟩
  split at h
  · simp at h
  cases spc
  case wakeRef =>
    simp only at h
    split at h
    · simp at h
    · rename_i w
      simp only [Option.some.injEq] at h
      subst h
      right
      rw [← hwak w rfl]
      simp [fresh, ringWake, State.emit]
  case errWaker st0 _ =>
    simp only at h
    split at h
    · simp at h
    · rename_i w
      have hc0 : has st0 (CLOSED k) = false := by
        cases e : has st0 (CLOSED k) with
        | false => rfl
        | true => have := hfail (by simpa [sFail] using e); rw [hcl] at this; simp at this
      simp only [hc0, errTail, Bool.false_eq_true, ↓reduceIte, Option.some.injEq] at h
      subst h
      right
      rw [← hwak w rfl]
      simp only [State.emit, fresh_two]
      simp [ringWake, List.findSome?]
  case drWaker st0 _ =>
    simp only at h
    split at h
    · simp at h
    · rename_i w
      have hc0 : has st0 (HALF k) = false := by
        cases e : has st0 (HALF k) with
        | false => rfl
        | true => have := hfirst (by simp [sSt, e]); simp [rDone] at this
      simp only [hc0, Bool.false_eq_true, ↓reduceIte, Option.some.injEq] at h
      subst h
      right
      rw [← hwak w rfl]
      simp [fresh, ringWake, State.emit]
  case wrRmw v i =>
    left
    simp only [hcl, s2, Bool.false_eq_true, ↓reduceIte, State.emit, Option.some.injEq] at h
    subst h
    exact ⟨rfl, by dsimp only; rw [has_addLength_RX, s2], fun _ => .inl rfl, .inl rfl⟩
  case owClaim v =>
    left
    have hl : len st = 0 := by
      rcases Nat.eq_zero_or_pos (len st) with e | e
      · exact e
      · exact absurd (s3 (.inl e)) (by simp [sRef, sWk])
    have hne : ¬ (0 = cap) := by omega
    have hst : claimIfFull cap st = st := by
      unfold claimIfFull
      rw [hl, if_neg]
      simp [hne]
    simp only [hst, hl, owMid, hcl, hne, State.emit, Bool.not_false, Bool.true_and, beq_iff_eq, ↓reduceIte, Bool.false_eq_true, Option.some.injEq] at h
    subst h
    exact ⟨rfl, s2, fun h => absurd (s3 h) (by simp [sRef, sWk]), .inl rfl⟩
  all_goals (try (simp [sDone, sWk] at s4; done))
  all_goals left
  all_goals (simp only [hcl, owMid, errTail, State.emit, s2] at h)
  all_goals (repeat' (split at h))
  all_goals first
    | (simp at h; done)
    | skip
  all_goals simp only [Option.some.injEq] at h
  all_goals subst h
  all_goals first
    | exact ⟨rfl, s2, fun h => absurd (s3 h) (by simp [sRef, sWk]), .inl rfl⟩
    | (refine ⟨rfl, ?_, fun _ => .inr rfl, .inr rfl⟩; simp [has_or, s2]; done)
    | (refine ⟨rfl, ?_, fun h => absurd (s3 ?_) (by simp [sRef, sWk]), .inl rfl⟩
       · dsimp only; rw [has_setKind_RX, s2]
       · simpa [len_setKind, has_setKind_ERR] using h)
    | skip

theorem removals_nodrop {l : List (Event Nat Nat)} (h : Event.claimAll ∉ l) : ∀ p ∈ removals l, p.1 = .receiver ∨ p.1 = .sender := by
  induction l with
  | nil => simp [removals]
  | cons e l ih =>
    simp only [List.mem_cons, not_or] at h
    have ih := ih h.2
    cases e <;> first
      | exact ih
      | (simp at h; done)
      | (intro p hp
         simp only [removals, List.mem_append, List.mem_map] at hp
         rcases hp with hp | ⟨v, -, rfl⟩
         · exact ih p hp
         · first | exact .inl rfl | exact .inr rfl)

theorem merge_of {l : List (Event Nat Nat)} (hv : Hist OkVal l) (hc : Event.claimAll ∉ l) (hp : (abs l).pend = []) (hr : (abs l).rx = none)
    (ht : (abs l).tx = none) : Merge (pushed l) (received l) (overwritten l) := by
  obtain ⟨h1, h2, -⟩ := removedBy_eq hv
  have h0 := pushed_eq l
  have hd := removals_nodrop hc
  rw [hp, List.append_nil] at h0
  rw [hr, Option.toList_none, List.append_nil] at h1
  rw [ht, Option.toList_none, List.append_nil] at h2
  rw [h0, ← h1, ← h2]
  clear h0 h1 h2
  refine ⟨(removals l).map fun p => (decide (p.1 = .receiver), p.2), ?_, ?_, ?_⟩
  · simp [Function.comp_def]
  · simp only [removedBy, List.filter_map, List.map_map, Function.comp_def]
  · simp only [removedBy, List.filter_map, List.map_map, Function.comp_def]
    congr 1
    apply List.filter_congr
    intro p hp
    rcases hd p hp with h | h <;> simp [h]

/-- When the receiver finds the sender gone, no value and no error, it has got everything. -/
theorem end_fin (h1 : 1 < cap) (hcap : cap < 2 ^ k) {c : State k Nat Nat} (h : Reach cap N c) (hr : c.rpc = .idle)
    (hcl : has c.st (CLOSED k) = false) (hh : has c.st (HALF k) = true) (he : has c.st (ERR k) = false) (h0 : len c.st = 0) :
    Fin N c.log ∧ sDone c.spc = true := by
  have inv := reach_sane h1 hcap h (by rw [hr]; rfl)
  obtain ⟨-, ⟨iw, -⟩, l⟩ := reach_inv h1 hcap h
  have ic := reach_con h1 hcap h
  have hsd : sDone c.spc = true := by have := inv.half; rw [hh, hr] at this; simpa [rDone] using this.symm
  have hncl : Event.closed ∉ c.log := fun e => by have := iw.cl.2 e; rw [hcl] at this; simp at this
  refine ⟨⟨?_, by rw [iw.cnt, h0], fun hN => ?_, ?_⟩, hsd⟩
  · rcases (sFacts2 c.spc).don hsd with h | h | h
    · exact .inl (l.sent h)
    · exact .inr (l.drop2 h)
    · exact (l.gone h).elim .inr fun h => .inl h.1
  · obtain ⟨b, hv⟩ := ic hN
    refine merge_of hv ?_ ?_ ?_ ?_
    · intro e; have := b.alld.1 e; rw [hr] at this; simp [rDone] at this
    · have := iw.cnt; rw [h0] at this; exact List.length_eq_zero_iff.1 this
    · have := b.rx; rw [hr] at this; simpa [rHold] using this.symm
    · have := b.tx
      have e : sOw c.spc = none := by cases e : c.spc <;> simp [e, sDone, sOw] at hsd ⊢
      rw [e] at this; simpa using this.symm
  · have hv := l.vals
    have hdv : dropErrs c.log = [] := Classical.byContradiction fun e => by have := l.rdrop e; rw [hr] at this; simp [rDone] at this
    have hret : returned c.log = [] := Classical.byContradiction fun e => hncl (l.ret e).2.1
    have hsf : sFail c.spc = false := by
      cases e : sFail c.spc with
      | false => rfl
      | true => have := inv.sfail e; rw [hcl] at this; simp at this
    have hsv : sErr c.spc = [] := by
      have h1 := inv.first1
      rw [hr] at h1
      cases e : c.spc <;> simp_all [sErr, sDone, sSt, rDone]
    have hsw : sWritten c.spc = false := by
      cases e : sWritten c.spc with
      | false => rfl
      | true => have := (sFacts c.spc).written e; rw [hsd] at this; simp at this
    have hn : c.err = none := by
      have := inv.data
      rw [he, hsf, hsw, hr] at this
      cases e : c.err <;> simp_all [rRead]
    rw [hsv, hn, hdv, hret] at hv
    simpa using hv.symm

/-- One access of a receiver that is read. -/
theorem recv_fit (h1 : 1 < cap) (hcap : cap < 2 ^ k) {t : Nat} {c c' : State k Nat Nat} {r : Verif.Exec.Chan.Res} (f : Fit cap N t c)
    (hg : c.rpc ≠ .gone) (h : ringRecv cap t c = some (c', r)) (hn : N → ¬ Clash cap c') :
    Fit cap N t c' ∧ (r = .pending → Sleep c') ∧ (r = .ready → c'.rpc = .gone) ∧ (r ≠ .ready → c'.rpc ≠ .gone) := by
  by_cases hi : c.rpc = .idle
  · have hs : step cap c (.rCall (.pollNext t)) = some (rCall c (.pollNext t)) := by simp [step, hi, RPc.isIdle]
    simp only [ringRecv, hi, Option.some.injEq, Prod.mk.injEq] at h
    obtain ⟨rfl, rfl⟩ := h
    obtain ⟨f1, f2, f3, f4, f5, f6⟩ := f
    rw [hi] at f4 f5
    exact ⟨⟨reach_step f1 hs hn, f2, by simp [rCall, rArg], f4, by simp [rCall, over], rfl⟩, by simp, by simp, by simp [rCall]⟩
  · have hq : ringRecv cap t c = (match rStep cap c with
        | none => none
        | some c' =>
          match c'.rpc with
          | .idle =>
            match (fresh c.log c'.log).head? with
            | some (.pending _) => some (c', .pending)
            | some .ended => some (rCall c' .drop, .more)
            | _ => some (c', .more)
          | .gone => some (c', .ready)
          | _ => some (c', .more)) := by
      unfold ringRecv
      split
      · rename_i e; exact absurd e hi
      · rfl
    rw [hq] at h
    clear hq
    cases hs : rStep cap c with
    | none => rw [hs] at h; simp at h
    | some c1 =>
      rw [hs] at h
      simp only at h
      have hn1 : N → ¬ Clash cap c1 := by
        intro hN
        by_cases e : c1.rpc = .idle
        · exact noclash_slots (by rw [e]; rfl)
        · have : c' = c1 := by
            revert h
            split
            · intro _; contradiction
            · intro h; simp only [Option.some.injEq, Prod.mk.injEq] at h; exact h.1.symm
            · intro h; simp only [Option.some.injEq, Prod.mk.injEq] at h; exact h.1.symm
          rw [← this]; exact hn hN
      have r1 : Reach cap N c1 := reach_step (a := .rStep) f.reach hs hn1
      have r2 : c1.rpc = .idle → Reach cap N (rCall c1 .drop) := fun e =>
        reach_step (a := .rCall .drop) r1 (by simp [step, e, RPc.isIdle]) fun _ => noclash_slots (by simp [rCall, RPc.slots])
      have sane := reach_sane h1 hcap f.reach
      have iw := (reach_inv h1 hcap f.reach).2.1.1
      have hcur := iw.cur
      have lg := iw.zero
      have hcnt := iw.cnt
      clear iw
      have ef := end_fin h1 hcap r1
      obtain ⟨f1, f2, f3, f4, f5, f6⟩ := f
      obtain ⟨st, buf, err, rxw, txw, freed, spc, rpc, log⟩ := c
      simp only [rStep] at hs
      dsimp only at *
      split at hs
      · rename_i hres
        cases rpc <;> simp [RPc.resting] at hres hi hg
      split at hs
      · simp at hs
      have hcl : rDone rpc = false → has st (CLOSED k) = false := by
        intro e
        cases e' : has st (CLOSED k) with
        | false => rfl
        | true => exact absurd (f4 e') (by simp [e])
      have hlt := len_take (st := st) (Nat.le_of_lt hcap) hcur
      cases rpc
      case idle => exact absurd rfl hi
      case gone => exact absurd rfl hg
      case clRmw => simp [other] at f6
      case clWaker => simp [other] at f6
      case tnRmw => simp [other] at f6
      case itLoad => simp [other] at f6
      case drSlot => simp [other] at f6
      case tvRmw i wake er _ =>
        have hcl := hcl rfl
        have hc' : has (st ||| (if wake then READY k ||| FLUSH k else 0#(2 * k + 6)) ||| (if er then ERR k else 0#(2 * k + 6))) (CLOSED k) = false := by
          rw [has_or, has_or, has_ite, has_ite, has_or, hcl, has_zero, has_READY_CLOSED, has_FLUSH_CLOSED, has_ERR_CLOSED]
          simp
        simp only at hs
        split at hs
        all_goals
          simp only [Option.some.injEq] at hs
          subst hs
          simp only [Option.some.injEq, Prod.mk.injEq] at h
          obtain ⟨rfl, rfl⟩ := h
          refine ⟨⟨r1, f2, by simp [rArg], ?_, by simp [over], rfl⟩, by simp, by simp, by simp⟩
          dsimp only
          rw [hc']; simp
      case tvWake i =>
        have hcl := hcl rfl
        simp only at hs
        split at hs
        · simp at hs
        simp only [Option.some.injEq, State.emit] at hs
        subst hs
        simp only [Option.some.injEq, Prod.mk.injEq] at h
        obtain ⟨rfl, rfl⟩ := h
        refine ⟨⟨r1, f2, by simp [rArg], ?_, by simp [over], rfl⟩, by simp, by simp, by simp⟩
        dsimp only
        rw [hcl]; simp
      case tvRead i =>
        have hcl := hcl rfl
        simp only at hs
        split at hs
        · simp at hs
        split at hs
        · simp at hs
        simp only [Option.some.injEq, State.emit] at hs
        subst hs
        simp only [fresh_one, List.head?_cons, Option.some.injEq, Prod.mk.injEq] at h
        obtain ⟨rfl, rfl⟩ := h
        refine ⟨⟨r1, f2, by simp [rArg], ?_, by simp [over], rfl⟩, by simp, by simp, by simp⟩
        dsimp only
        rw [hcl]; simp
      case rdErr =>
        have hcl := hcl rfl
        simp only at hs
        split at hs
        · simp at hs
        simp only [Option.some.injEq, State.emit] at hs
        subst hs
        simp only [fresh_one, List.head?_cons, Option.some.injEq, Prod.mk.injEq] at h
        obtain ⟨rfl, rfl⟩ := h
        refine ⟨⟨r1, f2, by simp [rArg], ?_, by simp [over], rfl⟩, by simp, by simp, by simp⟩
        dsimp only
        rw [hcl]; simp
      case pnWrite w _ =>
        have hcl := hcl rfl
        simp only at hs
        split at hs
        · simp at hs
        simp only [Option.some.injEq, State.emit] at hs
        subst hs
        simp only [Option.some.injEq, Prod.mk.injEq] at h
        obtain ⟨rfl, rfl⟩ := h
        refine ⟨⟨r1, ?_, f3, ?_, by simp [over], rfl⟩, by simp, by simp, by simp⟩
        · intro u hu
          simp only [Option.some.injEq] at hu
          exact f3 u (by rw [← hu]; rfl)
        · dsimp only; rw [hcl]; simp
      case pnRmw w _ =>
        have hcl := hcl rfl
        have inv := sane rfl
        have hhalf := inv.half
        simp only [rDone, Bool.or_false] at hhalf
        have hc' : has (take cap st) (CLOSED k) = false := by rw [has_take_CLOSED, hcl]
        simp only [takeValue, State.emit] at hs
        split at hs
        · simp only [Option.some.injEq] at hs
          split at hs <;> subst hs
          all_goals
            simp only [Option.some.injEq, Prod.mk.injEq] at h
            obtain ⟨rfl, rfl⟩ := h
            refine ⟨⟨r1, f2, by simp [rArg], ?_, by simp [over], rfl⟩, by simp, by simp, by simp⟩
            dsimp only
            rw [hc']; simp
        · rename_i hlen
          have hlen : len st = 0 := by omega
          split at hs
          · simp only [Option.some.injEq] at hs
            subst hs
            simp only [Option.some.injEq, Prod.mk.injEq] at h
            obtain ⟨rfl, rfl⟩ := h
            refine ⟨⟨r1, f2, by simp [rArg], ?_, by simp [over], rfl⟩, by simp, by simp, by simp⟩
            dsimp only
            rw [hc']; simp
          · split at hs
            · rename_i hh
              simp only [hcl, Bool.or_false] at hh
              simp only [Option.some.injEq] at hs
              subst hs
              simp only [fresh_one, List.head?_cons, Option.some.injEq, Prod.mk.injEq] at h
              obtain ⟨rfl, rfl⟩ := h
              refine ⟨⟨r2 rfl, f2, by simp [rCall, rArg], ?_, fun _ => ?_, rfl⟩, by simp, by simp, by simp [rCall]⟩
              · simp only [rCall]; rw [hc']; simp
              · exact ef rfl hc' (by dsimp only; rw [has_take_HALF, hh]) (by dsimp only; rw [has_take_ERR]) (by dsimp only; omega)
            · rename_i hh
              have hh' : has st (HALF k) = false := by
                cases e : has st (HALF k) with
                | false => rfl
                | true => simp [e] at hh
              split at hs
              · rename_i hrx
                simp only [Option.some.injEq] at hs
                subst hs
                simp only [fresh_one, List.head?_cons, Option.some.injEq, Prod.mk.injEq] at h
                obtain ⟨rfl, rfl⟩ := h
                refine ⟨⟨r1, f2, by simp [rArg], ?_, by simp [over], rfl⟩, fun _ => ⟨rfl, ?_, ?_, .inl ?_⟩, by simp, by simp⟩
                · dsimp only; rw [hc']; simp
                · dsimp only; rw [has_take_RX]; exact hrx
                · dsimp only; rw [has_take_ERR, hlt, hlen]; simp
                · dsimp only; rw [← hhalf]; exact hh'
              · simp only [Option.some.injEq] at hs
                subst hs
                simp only [Option.some.injEq, Prod.mk.injEq] at h
                obtain ⟨rfl, rfl⟩ := h
                refine ⟨⟨r1, f2, f3, ?_, by simp [over], rfl⟩, by simp, by simp, by simp⟩
                dsimp only
                rw [hc']; simp
      case pnRmw2 w _ =>
        have hcl := hcl rfl
        have inv := sane rfl
        have hhalf := inv.half
        simp only [rDone, Bool.or_false] at hhalf
        have hc' : has (take cap st ||| RX k) (CLOSED k) = false := by rw [has_or, has_take_CLOSED, hcl, has_RX_CLOSED]; rfl
        simp only [takeValue, State.emit] at hs
        split at hs
        · split at hs
          all_goals
            simp only [Option.some.injEq] at hs
            subst hs
            simp only [Option.some.injEq, Prod.mk.injEq] at h
            obtain ⟨rfl, rfl⟩ := h
            refine ⟨⟨r1, f2, by simp [rArg], ?_, by simp [over], rfl⟩, by simp, by simp, by simp⟩
            dsimp only
            rw [hc']; simp
        · rename_i hh
          have hh' : has st (HALF k) = false := by simpa using hh
          split at hs
          · simp only [Option.some.injEq] at hs
            split at hs <;> subst hs
            all_goals
              simp only [Option.some.injEq, Prod.mk.injEq] at h
              obtain ⟨rfl, rfl⟩ := h
              refine ⟨⟨r1, f2, by simp [rArg], ?_, by simp [over], rfl⟩, by simp, by simp, by simp⟩
              dsimp only
              rw [hc']; simp
          · rename_i hlen
            have hlen : len st = 0 := by omega
            simp only [Option.some.injEq] at hs
            subst hs
            simp only [fresh_one, List.head?_cons, Option.some.injEq, Prod.mk.injEq] at h
            obtain ⟨rfl, rfl⟩ := h
            refine ⟨⟨r1, f2, by simp [rArg], ?_, by simp [over], rfl⟩, fun _ => ⟨rfl, ?_, ?_, .inl ?_⟩, by simp, by simp⟩
            · dsimp only; rw [hc']; simp
            · dsimp only; rw [has_or, has_RX_RX, Bool.or_true]
            · dsimp only; rw [has_or, has_take_ERR, has_RX_ERR, len_or_RX, hlt, hlen]; simp
            · dsimp only; rw [← hhalf]; exact hh'
      case pnUndo st0 _ _ =>
        have hcl := hcl rfl
        have inv := sane rfl
        obtain ⟨-, hsd, -, hd0⟩ := inv.rundo rfl
        have hhalf := inv.half
        rw [hsd, Bool.true_or] at hhalf
        simp only [takeValue, State.emit] at hs
        split at hs
        · simp at hs
        repeat' split at hs
        all_goals simp only [Option.some.injEq] at hs
        all_goals subst hs
        all_goals simp only [fresh_two, List.head?_cons, Option.some.injEq, Prod.mk.injEq] at h
        all_goals obtain ⟨rfl, rfl⟩ := h
        all_goals first
          | (refine ⟨⟨r1, by simp, by simp [rArg], ?_, by simp [over], rfl⟩, by simp, by simp, by simp⟩
             dsimp only
             rw [hcl]; simp; done)
          | skip
        rename_i hl0 _
        have h0 := lg (by simp only [rZero, beq_iff_eq]; omega)
        refine ⟨⟨r2 rfl, by simp [rCall], by simp [rCall, rArg], ?_, fun _ => ?_, rfl⟩, by simp, by simp, by simp [rCall]⟩
        · simp only [rCall]; rw [hcl]; simp
        · exact ef rfl hcl hhalf hd0 h0
      all_goals have ha := f5 rfl
      all_goals have hl0 : rDone (k := k) .idle = false → len st = 0 := fun _ => by rw [← hcnt]; exact ha.1.none
      all_goals have hl0 := hl0 rfl
      all_goals simp only [State.emit, State.release, dropTail, dropLoop, hl0, Nat.lt_irrefl, ↓reduceIte] at hs
      all_goals repeat' split at hs
      all_goals first
        | (simp at hs; done)
        | simp only [Option.some.injEq] at hs
      all_goals subst hs
      all_goals simp only [Option.some.injEq, Prod.mk.injEq] at h
      all_goals obtain ⟨rfl, rfl⟩ := h
      all_goals
        refine ⟨⟨r1, ?_, by simp [rArg], by simp [rDone], fun _ => ⟨?_, ha.2⟩, rfl⟩, by simp, by simp, by simp⟩
      all_goals first
        | exact f2
        | exact ha.1
        | exact fin_append (es := [_]) ha.1 (by simp [isItem])
        | exact fin_append (es := [_, _]) ha.1 (by simp [isItem])
        | exact fin_append (es := [_, _, _]) ha.1 (by simp [isItem])

/-- A receiver that sleeps while its sender is not in a call has got everything that was sent. -/
theorem sleep_rest (h1 : 1 < cap) (hcap : cap < 2 ^ k) {t : Nat} {c : State k Nat Nat} (f : Fit cap N t c) (sl : Sleep c)
    (hrest : c.spc.resting = true) :
    ¬ SenderLeft c.log ∧ (N → Merge (pushed c.log) (received c.log) (overwritten c.log)) ∧ recvErrs c.log = errs c.log := by
  obtain ⟨-, ⟨iw, -⟩, lg⟩ := reach_inv h1 hcap f.reach
  have ic := reach_con h1 hcap f.reach
  have hid : c.spc = .idle := by
    have := sl.snd
    revert this hrest
    cases c.spc <;> simp [SPc.resting, sDone, sWk]
  have hun : errs c.log = [] := lg.unsent (by rw [hid]; rfl) (by rw [hid]; rfl)
  have hv := lg.vals
  have h0 : len c.st = 0 := by
    rcases Nat.eq_zero_or_pos (len c.st) with e | e
    · exact e
    · have := sl.dat (.inl e); rw [hid] at this; simp [sRef, sWk] at this
  refine ⟨?_, fun hN => ?_, ?_⟩
  · rintro (h | h)
    · exact h hun
    · have := (lg.drop1 h).2; rw [hid] at this; simp [sDrop, sGone] at this
  · obtain ⟨b, hv⟩ := ic hN
    refine merge_of hv ?_ ?_ ?_ ?_
    · intro e; have := b.alld.1 e; rw [sl.idle] at this; simp [rDone] at this
    · have := iw.cnt; rw [h0] at this; exact List.length_eq_zero_iff.1 this
    · have := b.rx; rw [sl.idle] at this; simpa [rHold] using this.symm
    · have := b.tx; rw [hid] at this; simpa [sOw] using this.symm
  · rw [hun] at hv ⊢
    have := congrArg List.length hv
    simp only [List.length_append, List.length_nil] at this
    exact List.eq_nil_of_length_eq_zero (by omega)

theorem orderly (h1 : 1 < cap) (hcap : cap < 2 ^ k) {t : Nat} {c : State k Nat Nat} (f : Fit cap N t c) : Orderly c := by
  intro i hi hc
  have := f.clo ((reach_inv h1 hcap f.reach).2.1.1.cl.2 hc)
  rw [hi] at this
  simp [rDone] at this

theorem recv_sane (h1 : 1 < cap) (hcap : cap < 2 ^ k) {t : Nat} {c : State k Nat Nat} (f : Fit cap N t c) (hN : N) (v : Inv cap c) (ap : Apart c) :
    ∃ c' r, ringRecv cap t c = some (c', r) ∧ Inv cap c' := by
  obtain ⟨c1, h1'⟩ := rStep_progress v (reach_inv h1 hcap f.reach).2.1 (reach_con h1 hcap f.reach hN) (orderly h1 hcap f)
  have v1 : Inv cap c1 := step_inv (a := .rStep) v ap h1'
  unfold ringRecv
  split
  · rename_i e
    exact ⟨_, _, rfl, rCall_inv v (by rw [e]; rfl) _⟩
  · rw [h1']
    simp only
    split
    · rename_i e
      split
      · exact ⟨_, _, rfl, v1⟩
      · exact ⟨_, _, rfl, rCall_inv v1 (by rw [e]; rfl) _⟩
      · exact ⟨_, _, rfl, v1⟩
    · exact ⟨_, _, rfl, v1⟩
    · exact ⟨_, _, rfl, v1⟩

theorem send_sane (h1 : 1 < cap) (hcap : cap < 2 ^ k) {t : Nat} {c : State k Nat Nat} (f : Fit cap N t c) (hN : N) (v : Inv cap c) (ap : Apart c)
    (a : Act Nat Nat) : ∃ c', step cap c a = some c' ∧ Inv cap c' := by
  obtain ⟨c1, h⟩ := step_progress v (reach_inv h1 hcap f.reach).2.1 (reach_con h1 hcap f.reach hN) (orderly h1 hcap f) a
  exact ⟨c1, h, step_inv v ap h⟩

end Verif.Ring.Read
