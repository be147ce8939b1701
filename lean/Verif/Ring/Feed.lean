import Verif.Exec.PipeSpec
import Verif.Ring.Read
import Verif.Ring.PropsLemmas2
/-! # A ring channel whose sender is fed by a task -/
namespace Verif.Ring.Feed
open Verif.Spsc
open Verif.Exec.Str (ringRecv fresh ringWake fresh_nil fresh_one fresh_two)
open Verif.Exec.Pipe (feed Prog)
open Verif.Ring.Read (Reach reach_step reach_inv noclash_slots)

variable {k cap : Nat} {N : Prop}

/-- The waker that a poll in progress uses. -/
def sArg : SPc k Nat Nat → Option Nat
  | .pLoad _ w | .pWrite _ w | .pRmw _ w _ => some w
  | _ => none

/-- Where a task never is. -/
def sOther : SPc k Nat Nat → Bool
  | .owLoad _ | .owClaim _ | .owRead _ _ | .wrBack _ _ | .errWrite _ | .errRmw | .errWaker _ | .errBack _ | .errFree _ | .icLoad | .pUndo _ => true
  | .pLoad .close _ | .pWrite .close _ | .pRmw .close _ _ => true
  | _ => false

/-- The sender is dropped. -/
def sLeft : SPc k Nat Nat → Bool
  | .drRmw | .drWaker _ | .drFree | .gone => true
  | _ => false

/-- The value of the send in progress. -/
def hand : SPc k Nat Nat → List Nat
  | .tsLoad v | .wrWrite v _ | .wrRmw v _ => [v]
  | _ => []

/-- The state of a channel whose sender is fed by a task of thread `t` with the values `vals`. -/
structure Fit (cap t : Nat) (vals : List Nat) (c : State k Nat Nat) (p : Prog) : Prop where
  wak : ∀ w, c.txw = some w → w = t
  arg : ∀ w, sArg c.spc = some w → w = t
  oth : sOther c.spc = false
  room : ∀ v, c.spc = .tsLoad v → len c.st < cap
  sent : pushed c.log ++ hand c.spc ++ p.todo.map (·.1) = vals
  left : sLeft c.spc = true → p.todo = []
  noc : Event.claimTx ∉ c.log
  noe : errs c.log = []

/-- The sender has returned `Poll::Pending` and was not woken since. -/
structure Sleep (c : State k Nat Nat) : Prop where
  idle : c.spc = .idle
  wait : ∃ κ, txWaits c.log = some κ ∧ κ ≠ .close
  asleep : txSince isTxWake c.log = false

theorem fit_init (cap t : Nat) (vals : List (Nat × Bool)) : Fit cap t (vals.map (·.1)) (init k Nat Nat) ⟨vals, false⟩ :=
  ⟨by simp [init], by simp [init, sArg], rfl, by simp [init], by simp [init, pushed, hand], by simp [init, sLeft], by simp [init], by simp [init, errs]⟩

/-- The steps of the receiver, as far as they concern the sender. -/
structure RRel (c c' : State k Nat Nat) : Prop where
  spc : c'.spc = c.spc
  txw : ∀ w, c'.txw = some w → c.txw = some w
  len : len c'.st ≤ len c.st
  psh : pushed c'.log = pushed c.log
  err : errs c'.log = errs c.log
  clm : Event.claimTx ∈ c'.log → Event.claimTx ∈ c.log
  wak : txWaits c'.log = txWaits c.log ∧ txSince isTxWake c'.log = txSince isTxWake c.log ∨
    ∃ w, c.txw = some w ∧ (fresh c.log c'.log).findSome? ringWake = some w

theorem rCall_rel (c : State k Nat Nat) (op : ROp) : RRel c (rCall c op) := by
  cases op <;> exact ⟨rfl, fun _ h => h, Nat.le_refl _, rfl, rfl, id, .inl ⟨rfl, rfl⟩⟩

theorem rStep_rel (hcap : cap < 2 ^ k) {c c' : State k Nat Nat} (hcur : cur c.st < cap) (h : rStep cap c = some c') : RRel c c' := by
  have htk := len_take (Nat.le_of_lt hcap) hcur
  obtain ⟨st, buf, err, rxw, txw, freed, spc, rpc, log⟩ := c
  dsimp only at *
  simp only [rStep] at h
  split at h
  · simp only [Option.some.injEq] at h; subst h; exact ⟨rfl, fun _ h => h, Nat.le_refl _, rfl, rfl, id, .inl ⟨rfl, rfl⟩⟩
  split at h
  · simp at h
  cases rpc <;> simp only [takeValue, dropLoop, dropTail, State.emit, State.release] at h
  all_goals (repeat' (split at h))
  all_goals first
    | (simp at h; done)
    | skip
  all_goals simp only [Option.some.injEq] at h
  all_goals (repeat' (split at h))
  all_goals subst h
  all_goals refine ⟨rfl, ?_, ?_, rfl, rfl, ?_, ?_⟩
  all_goals first
    | (show ∀ w, _ = some w → _; first | exact fun _ h => h | (intro w h; simp at h; done))
    | (show _ ∈ _ → _ ∈ _; first | exact id | (intro h; simpa using h))
    | (show _ ∨ _; first
        | exact .inl ⟨rfl, rfl⟩
        | exact .inr ⟨_, rfl, by simp only [fresh_one]; rfl⟩
        | exact .inr ⟨_, rfl, by simp only [fresh_two]; rfl⟩)
    | (show _ ≤ _; first
        | exact Nat.le_refl _
        | (simp only [htk, ← BitVec.or_assoc, BitVec.or_zero, len_or_RX, len_or_HALF, len_or_CLOSED, len_or_READY, len_or_FLUSH, len_or_ERR, len_clearLen]
           omega))
    | skip

theorem recv_rel (hcap : cap < 2 ^ k) {t : Nat} {c c' : State k Nat Nat} {r : Verif.Exec.Chan.Res} (hcur : cur c.st < cap)
    (h : ringRecv cap t c = some (c', r)) : RRel c c' := by
  unfold ringRecv at h
  split at h
  · simp only [Option.some.injEq, Prod.mk.injEq] at h; rw [← h.1]; exact rCall_rel _ _
  · split at h
    · simp at h
    · rename_i c1 h1
      have := rStep_rel hcap hcur h1
      repeat' (split at h)
      all_goals (simp only [Option.some.injEq, Prod.mk.injEq] at h; rw [← h.1])
      all_goals first
        | exact this
        | exact ⟨this.spc, this.txw, this.len, this.psh, this.err, this.clm, this.wak⟩

theorem fit_recv {t : Nat} {vals : List Nat} {c c' : State k Nat Nat} {p : Prog} (f : Fit cap t vals c p) (r : RRel c c') : Fit cap t vals c' p := by
  obtain ⟨f1, f2, f3, f4, f5, f6, f7, f8⟩ := f
  obtain ⟨r1, r2, r3, r4, r5, r6, -⟩ := r
  refine ⟨fun w h => f1 w (r2 w h), by rw [r1]; exact f2, by rw [r1]; exact f3, fun v h => ?_, by rw [r1, r4]; exact f5, by rw [r1]; exact f6,
    fun h => f7 (r6 h), by rw [r5]; exact f8⟩
  rw [r1] at h
  have := f4 v h
  omega

/-- The receiver of a sleeping sender leaves it asleep or wakes it. -/
theorem sleep_recv {t : Nat} {vals : List Nat} {c c' : State k Nat Nat} {p : Prog} (f : Fit cap t vals c p) (r : RRel c c') (sl : Sleep c) :
    Sleep c' ∨ (fresh c.log c'.log).findSome? ringWake = some t := by
  obtain ⟨s1, s2, s3⟩ := sl
  rcases r.wak with ⟨h1, h2⟩ | ⟨w, h1, h2⟩
  · exact .inl ⟨by rw [r.spc]; exact s1, by rw [h1]; exact s2, by rw [h2]; exact s3⟩
  · rw [f.wak w h1] at h2; exact .inr h2

/-- Not both ends sleep while none is in a call. -/
theorem not_both (h1 : 1 < cap) (hcap : cap < 2 ^ k) {t u : Nat} {vals : List Nat} {c : State k Nat Nat} {p : Prog} (f : Read.Fit cap N u c)
    (g : Fit cap t vals c p) (sr : Read.Sleep c) (ss : Sleep c) : False := by
  obtain ⟨as, hr, -⟩ := f.reach
  obtain ⟨-, -, -, -, -, -, d, -⟩ := reach h1 hcap hr
  obtain ⟨s1, ⟨κ, s2, s4⟩, s3⟩ := ss
  have h0 : ¬ 0 < len c.st := fun e => by
    have := sr.dat (.inl e)
    rw [s1] at this
    simp [sRef, sWk] at this
  rcases d.wake (by rw [s1]; rfl) κ s2 with q | q | ⟨-, -, q3, q4⟩
  · rw [s3] at q; simp at q
  · rw [sr.idle] at q; simp [rWaking] at q
  · cases κ with
    | ready =>
      rcases q3 rfl with q | q
      · omega
      · have : ∀ l : List (Event Nat Nat), txSince isClaimTx l = true → Event.claimTx ∈ l := by
          intro l
          induction l with
          | nil => simp [txSince]
          | cons e l ih => cases e <;> simp_all [txSince, isClaimTx]
        exact g.noc (this _ q)
    | flush => exact h0 (q4 rfl)
    | close => exact s4 rfl

/-- What a step of a sender that is fed leads to. -/
theorem sStep_fit (h1 : 1 < cap) (hcap : cap < 2 ^ k) {t : Nat} {vals : List Nat} {c c' : State k Nat Nat} {p : Prog} (g : Fit cap t vals c p)
    (hcl : sDone c.spc = false → has c.st (CLOSED k) = false) (hi : c.spc ≠ .idle) (hg : c.spc ≠ .gone) (h : sStep cap c = some c') :
    Fit cap t vals c' p ∧ (c'.spc = .gone → sDone c'.spc = true) ∧
    (c'.spc = .idle → (∃ κ w, (fresh c.log c'.log).head? = some (.pollPending κ w) ∧ Sleep c') ∨
      ((fresh c.log c'.log).head? = some (.pollOk .ready) ∧ len c'.st < cap) ∨ (fresh c.log c'.log).head? = some (.pollOk .flush) ∨
      (∃ v, (fresh c.log c'.log).head? = some (.push v)) ∨ ∃ w, (fresh c.log c'.log).head? = some (.wakeRefRx w)) := by
  obtain ⟨g1, g2, g3, g4, g5, g6, g7, g8⟩ := g
  obtain ⟨st, buf, err, rxw, txw, freed, spc, rpc, log⟩ := c
  simp only [sStep] at h
  dsimp only at *
  split at h
  · rename_i hres; cases spc <;> simp [SPc.resting] at hres hi hg
  rename_i hres
  clear hres
  split at h
  · simp at h
  cases spc
  case idle => exact absurd rfl hi
  case gone => exact absurd rfl hg
  case tsLoad v =>
    have := g4 v rfl
    simp only [show ¬ len st = cap by omega, ↓reduceIte, Option.some.injEq] at h
    subst h
    exact ⟨⟨g1, by simp [sArg], rfl, by simp, g5, by simp [sLeft], g7, g8⟩, by simp, by simp⟩
  case wrWrite v i =>
    simp only at h
    split at h
    · simp at h
    · simp only [Option.some.injEq] at h
      subst h
      exact ⟨⟨g1, by simp [sArg], rfl, by simp, g5, by simp [sLeft], g7, g8⟩, by simp, by simp⟩
  case wrRmw v i =>
    simp only [hcl rfl, Bool.false_eq_true, ↓reduceIte, State.emit] at h
    have hp : pushed (Event.push v :: log) ++ [] ++ p.todo.map (·.1) = vals := by
      simp only [pushed, List.append_nil]; exact g5
    split at h <;> simp only [Option.some.injEq] at h <;> subst h
    · exact ⟨⟨g1, by simp [sArg], rfl, by simp, hp, by simp [sLeft], by simpa using g7, g8⟩, by simp, by simp⟩
    · exact ⟨⟨g1, by simp [sArg], rfl, by simp, hp, by simp [sLeft], by simpa using g7, g8⟩, by simp,
        fun _ => .inr (.inr (.inr (.inl ⟨v, by simp only [fresh_one]; rfl⟩)))⟩
  case wakeRef =>
    simp only [State.emit] at h
    split at h
    · simp at h
    · simp only [Option.some.injEq] at h
      subst h
      exact ⟨⟨g1, by simp [sArg], rfl, by simp, g5, by simp [sLeft], by simpa using g7, g8⟩, by simp,
        fun _ => .inr (.inr (.inr (.inr ⟨_, by simp only [fresh_one]; rfl⟩)))⟩
  case pLoad κ w =>
    simp only [hcl rfl, Bool.false_eq_true, ↓reduceIte, State.emit] at h
    have hw := g2 w rfl
    have hκ : κ ≠ .close := by rintro rfl; simp [sOther] at g3
    repeat' split at h
    all_goals simp only [Option.some.injEq] at h
    all_goals subst h
    · rename_i hr
      refine ⟨⟨g1, by simp [sArg], rfl, by simp, g5, by simp [sLeft], by simpa using g7, g8⟩, by simp, fun _ => ?_⟩
      simp only [fresh_one, List.head?_cons]
      cases κ with
      | ready => exact .inr (.inl ⟨rfl, by simpa [pollReady] using hr⟩)
      | flush => exact .inr (.inr (.inl rfl))
      | close => exact absurd rfl hκ
    · refine ⟨⟨g1, by simp [sArg], rfl, by simp, g5, by simp [sLeft], by simpa using g7, g8⟩, by simp, fun _ => .inl ⟨κ, w, ?_, rfl, ⟨κ, rfl, hκ⟩, rfl⟩⟩
      simp only [fresh_one, List.head?_cons]
    · exact ⟨⟨g1, g2, by cases κ <;> first | rfl | exact absurd rfl hκ, by simp, g5, by simp [sLeft], g7, g8⟩, by simp, by simp⟩
    · exact ⟨⟨g1, g2, by cases κ <;> first | rfl | exact absurd rfl hκ, by simp, g5, by simp [sLeft], g7, g8⟩, by simp, by simp⟩
  case pWrite κ w =>
    have hκ : κ ≠ .close := by rintro rfl; simp [sOther] at g3
    simp only [State.emit] at h
    split at h
    · simp at h
    · simp only [Option.some.injEq] at h
      subst h
      refine ⟨⟨?_, g2, by cases κ <;> first | rfl | exact absurd rfl hκ, by simp, g5, by simp [sLeft], by simpa using g7, g8⟩, by simp, by simp⟩
      intro u hu
      simp only [Option.some.injEq] at hu
      exact g2 u (by rw [← hu]; rfl)
  case pRmw κ w wr =>
    have hκ : κ ≠ .close := by rintro rfl; simp [sOther] at g3
    simp only [hcl rfl, Bool.false_eq_true, ↓reduceIte, State.emit] at h
    split at h <;> simp only [Option.some.injEq] at h <;> subst h
    · rename_i hr
      refine ⟨⟨g1, by simp [sArg], rfl, by simp, g5, by simp [sLeft], by simpa using g7, g8⟩, by simp, fun _ => ?_⟩
      simp only [fresh_one, List.head?_cons]
      cases κ with
      | ready => exact .inr (.inl ⟨rfl, by rw [len_setKind]; simpa [pollReady] using hr⟩)
      | flush => exact .inr (.inr (.inl rfl))
      | close => exact absurd rfl hκ
    · refine ⟨⟨g1, by simp [sArg], rfl, by simp, g5, by simp [sLeft], by simpa using g7, g8⟩, by simp, fun _ => .inl ⟨κ, w, ?_, rfl, ⟨κ, rfl, hκ⟩, rfl⟩⟩
      simp only [fresh_one, List.head?_cons]
  case drRmw =>
    have h0 := g6 rfl
    simp only [State.emit] at h
    repeat' split at h
    all_goals simp only [Option.some.injEq] at h
    all_goals subst h
    all_goals exact ⟨⟨g1, by simp [sArg], rfl, by simp, g5, fun _ => h0, by simpa using g7, g8⟩, fun _ => rfl, by simp⟩
  case drWaker =>
    have h0 := g6 rfl
    simp only [State.emit] at h
    split at h
    · simp at h
    split at h <;> simp only [Option.some.injEq] at h <;> subst h
    all_goals exact ⟨⟨g1, by simp [sArg], rfl, by simp, g5, fun _ => h0, by simpa using g7, g8⟩, fun _ => rfl, by simp⟩
  case drFree =>
    have h0 := g6 rfl
    simp only [State.emit, State.release, Option.some.injEq] at h
    subst h
    exact ⟨⟨g1, by simp [sArg], rfl, by simp, g5, fun _ => h0, by simpa using g7, g8⟩, fun _ => rfl, by simp⟩
  all_goals simp [sOther] at g3

theorem open_while {u : Nat} {c : State k Nat Nat} (f : Read.Fit cap N u c) (h : sDone c.spc = false) : has c.st (CLOSED k) = false := by
  cases e : has c.st (CLOSED k) with
  | false => rfl
  | true =>
    have h2 := f.clo e
    have h3 := f.oth
    have h4 := f.ans
    rw [h] at h4
    cases hr : c.rpc <;> simp_all [rDone, Read.other, Read.over]

/-- The sender begins a call. -/
theorem call_fit {u : Nat} {c : State k Nat Nat} (op : SOp Nat Nat) (f : Read.Fit cap N u c) (hi : c.spc = .idle) :
    Read.Fit cap N u (sCall c op) ∧ (Read.Sleep c → Read.Sleep (sCall c op)) := by
  have hs : step cap c (.sCall op) = some (sCall c op) := by simp [step, hi, SPc.isIdle]
  refine ⟨Read.fit_call f hs fun _ => ?_, fun sl => Read.sleep_call sl hs⟩
  rintro ⟨i, h, -⟩
  cases op <;> simp [sCall, State.emit, SPc.slot] at h

/-- One access of a task that feeds a sender. -/
theorem feed_fit (h1 : 1 < cap) (hcap : cap < 2 ^ k) {t u : Nat} {vals : List Nat} {c c' : State k Nat Nat} {p p' : Prog}
    {r : Verif.Exec.Chan.Res} {w : Option Nat} (f : Read.Fit cap N u c) (g : Fit cap t vals c p) (hg : c.spc ≠ .gone)
    (h : feed cap t c p = some (c', p', r, w)) (hn : N → ¬ Clash cap c') :
    Read.Fit cap N u c' ∧ Fit cap t vals c' p' ∧ (r = .pending → Sleep c') ∧ (r = .ready → c'.spc = .gone) ∧ (r ≠ .ready → c'.spc ≠ .gone) ∧
    (Read.Sleep c → Read.Sleep c' ∨ w = some u) ∧ c'.rpc = c.rpc := by
  by_cases hi : c.spc = .idle
  · simp only [feed, hi] at h
    obtain ⟨g1, g2, g3, g4, g5, g6, g7, g8⟩ := g
    rw [hi] at g5
    split at h
    · simp only [Option.some.injEq, Prod.mk.injEq] at h
      obtain ⟨rfl, rfl, rfl, rfl⟩ := h
      obtain ⟨c1, c2⟩ := call_fit (.poll .flush t) f hi
      exact ⟨c1, ⟨g1, by simp [sCall, sArg], rfl, by simp [sCall], g5, by simp [sCall, sLeft], g7, g8⟩, by simp, by simp, by simp [sCall],
        fun sl => .inl (c2 sl), rfl⟩
    · split at h
      · rename_i ht
        simp only [Option.some.injEq, Prod.mk.injEq] at h
        obtain ⟨rfl, rfl, rfl, rfl⟩ := h
        obtain ⟨c1, c2⟩ := call_fit .drop f hi
        exact ⟨c1, ⟨g1, by simp [sCall, sArg], rfl, by simp [sCall], g5, fun _ => ht, g7, g8⟩, by simp, by simp, by simp [sCall],
          fun sl => .inl (c2 sl), rfl⟩
      · simp only [Option.some.injEq, Prod.mk.injEq] at h
        obtain ⟨rfl, rfl, rfl, rfl⟩ := h
        obtain ⟨c1, c2⟩ := call_fit (.poll .ready t) f hi
        exact ⟨c1, ⟨g1, by simp [sCall, sArg], rfl, by simp [sCall], g5, by simp [sCall, sLeft], g7, g8⟩, by simp, by simp, by simp [sCall],
          fun sl => .inl (c2 sl), rfl⟩
  · unfold feed at h
    split at h
    · rename_i e; exact absurd e hi
    cases hs : sStep cap c with
    | none => rw [hs] at h; simp at h
    | some c1 =>
      rw [hs] at h
      simp only at h
      obtain ⟨g', -, hd⟩ := sStep_fit h1 hcap g (open_while f) hi hg hs
      have hn1 : c1.spc = .idle → ¬ Clash cap c1 := by
        rintro e ⟨i, h, -⟩
        rw [e] at h; simp [SPc.slot] at h
      have hrpc := (Read.sStep_rel (cap := cap) (c := c) (c' := c1) hs).rpc
      have hsl : Read.Sleep c → Read.Sleep c1 ∨ (fresh c.log c1.log).findSome? ringWake = some u := fun sl => Read.sleep_send h1 hcap f sl hs
      split at h
      · rename_i e
        have f1 : Read.Fit cap N u c1 := Read.fit_send f hs fun _ => hn1 e
        rcases hd e with ⟨κ, v, hh, sl⟩ | ⟨hh, hl⟩ | hh | ⟨v, hh⟩ | ⟨v, hh⟩ <;> rw [hh] at h <;> simp only at h
        · simp only [Option.some.injEq, Prod.mk.injEq] at h
          obtain ⟨rfl, rfl, rfl, rfl⟩ := h
          exact ⟨f1, g', fun _ => sl, by simp, by rw [e]; simp, hsl, hrpc⟩
        · split at h
          · simp only [Option.some.injEq, Prod.mk.injEq] at h
            obtain ⟨rfl, rfl, rfl, rfl⟩ := h
            exact ⟨f1, g', by simp, by simp, by rw [e]; simp, hsl, hrpc⟩
          · rename_i v fl vs ht
            simp only [Option.some.injEq, Prod.mk.injEq] at h
            obtain ⟨rfl, rfl, rfl, rfl⟩ := h
            obtain ⟨c2, c3⟩ := call_fit (.trySend v) f1 e
            obtain ⟨g1, g2, g3, g4, g5, g6, g7, g8⟩ := g'
            rw [e, ht] at g5
            refine ⟨c2, ⟨g1, by simp [sCall, State.emit, sArg], rfl, fun _ _ => hl, ?_, by simp [sCall, State.emit, sLeft],
              by simpa [sCall, State.emit] using g7, g8⟩, by simp, by simp, by simp [sCall, State.emit], fun sl => (hsl sl).imp_left c3, hrpc⟩
            simpa [sCall, State.emit, pushed, hand] using g5
        · simp only [Option.some.injEq, Prod.mk.injEq] at h
          obtain ⟨rfl, rfl, rfl, rfl⟩ := h
          obtain ⟨g1, g2, g3, g4, g5, g6, g7, g8⟩ := g'
          exact ⟨f1, ⟨g1, g2, g3, g4, g5, g6, g7, g8⟩, by simp, by simp, by rw [e]; simp, hsl, hrpc⟩
        · simp only [Option.some.injEq, Prod.mk.injEq] at h
          obtain ⟨rfl, rfl, rfl, rfl⟩ := h
          exact ⟨f1, g', by simp, by simp, by rw [e]; simp, hsl, hrpc⟩
        · simp only [Option.some.injEq, Prod.mk.injEq] at h
          obtain ⟨rfl, rfl, rfl, rfl⟩ := h
          exact ⟨f1, g', by simp, by simp, by rw [e]; simp, hsl, hrpc⟩
      · rename_i e
        simp only [Option.some.injEq, Prod.mk.injEq] at h
        obtain ⟨rfl, rfl, rfl, rfl⟩ := h
        exact ⟨Read.fit_send f hs hn, g', by simp, fun _ => e, by simp, hsl, hrpc⟩
      · rename_i e1 e2
        simp only [Option.some.injEq, Prod.mk.injEq] at h
        obtain ⟨rfl, rfl, rfl, rfl⟩ := h
        exact ⟨Read.fit_send f hs hn, g', by simp, by simp, fun _ => e2, hsl, hrpc⟩

/-- The task does not fault. -/
theorem feed_sane (h1 : 1 < cap) (hcap : cap < 2 ^ k) {t u : Nat} {c : State k Nat Nat} (p : Prog) (f : Read.Fit cap N u c) (hN : N)
    (v : Inv cap c) (ap : Apart c) : ∃ c' p' r w, feed cap t c p = some (c', p', r, w) ∧ Inv cap c' := by
  obtain ⟨c1, hs, v1⟩ := Read.send_sane h1 hcap f hN v ap .sStep
  simp only [step] at hs
  unfold feed
  split
  · rename_i e
    have hi : c.spc.isIdle = true := by rw [e]; rfl
    split
    · exact ⟨_, _, _, _, rfl, sCall_inv v hi _⟩
    · split <;> exact ⟨_, _, _, _, rfl, sCall_inv v hi _⟩
  · rw [hs]
    simp only
    split
    · rename_i e
      have hi : c1.spc.isIdle = true := by rw [e]; rfl
      repeat' split
      all_goals first
        | exact ⟨_, _, _, _, rfl, v1⟩
        | exact ⟨_, _, _, _, rfl, sCall_inv v1 hi _⟩
    · exact ⟨_, _, _, _, rfl, v1⟩
    · exact ⟨_, _, _, _, rfl, v1⟩

/-- A receiver that is not interrupted by its sender does not clash with it. -/
theorem recv_apart (h1 : 1 < cap) (hcap : cap < 2 ^ k) {t u : Nat} {c c' : State k Nat Nat} {r : Verif.Exec.Chan.Res} (f : Read.Fit cap N u c)
    (nc : ¬ Clash cap c) (h : ringRecv cap t c = some (c', r)) : ¬ Clash cap c' := by
  have iw := (reach_inv h1 hcap f.reach).2.1.1
  unfold ringRecv at h
  split at h
  · simp only [Option.some.injEq, Prod.mk.injEq] at h; rw [← h.1]
    exact noclash_slots (by simp [rCall, RPc.slots])
  · split at h
    · simp at h
    · rename_i c1 hs
      have n1 : ¬ Clash cap c1 := by
        obtain ⟨e1, e2⟩ := rStep_slots hs iw.cur
        rintro ⟨i, h3, h4⟩
        rw [e1] at h3
        rcases e2 i h4 with q | ⟨q, hd⟩
        · exact nc ⟨i, h3, q⟩
        · have := iw.slotat i h3 hd
          rw [this.1] at q
          exact not_mem_slots (Nat.le_refl _) this.2 q
      repeat' (split at h)
      all_goals (simp only [Option.some.injEq, Prod.mk.injEq] at h; rw [← h.1])
      all_goals first
        | exact n1
        | exact noclash_slots (by simp [rCall, RPc.slots])

end Verif.Ring.Feed
