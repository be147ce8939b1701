import Verif.Ring.OrderSlots
import Verif.Order.Witness
/-! # Schedules that fill the buffer -/
namespace Verif.Ring

open Verif.Spsc Verif.Order

variable {k cap : Nat} {τ ε : Type}

/-- Between calls, nothing happened but sending and receiving values. -/
structure Quiet (s : State k τ ε) (l c : Nat) : Prop where
  spc : s.spc = .idle
  rpc : s.rpc = .idle
  freed : s.freed = false
  closed : has s.st (CLOSED k) = false
  rx : has s.st (RX k) = false
  err : has s.st (ERR k) = false
  half : has s.st (HALF k) = false
  ready : has s.st (READY k) = false
  flush : has s.st (FLUSH k) = false
  cells : s.err = none ∧ s.rxw = none ∧ s.txw = none
  len : len s.st = l
  cur : cur s.st = c

/-- The guard lets everything through while the receiver has claimed nothing. -/
def Lets (cap : Nat) (ok : State k τ ε → Bool) : Prop := ∀ s, s.rpc = .idle → ok s = true

theorem lets_calm : Lets cap (calm (k := k) (τ := τ) (ε := ε) cap) := by
  intro s h
  unfold calm
  split
  · simp [h, RPc.slots]
  · rfl

theorem lets_true : Lets cap (fun _ : State k τ ε => true) := fun _ _ => rfl

theorem quiet_init : Quiet (init k τ ε) 0 0 :=
  ⟨rfl, rfl, rfl, has_zero _, has_zero _, has_zero _, has_zero _, has_zero _, has_zero _, ⟨rfl, rfl, rfl⟩, len_zero, cur_zero⟩

/-- A schedule from `p` to `p'` with accesses `es`, in which loads read the last value. -/
structure Leads {S W A : Type} (M : Machine S W A) (p p' : PState S W) (es : List Ev) : Prop where
  run : ∃ as, M.prun p as = some p'
  tr : p'.tr = p.tr ++ es
  fresh : Fresh M p'

section
variable {S W A : Type} {M : Machine S W A}

theorem fresh_init (M : Machine S W A) : Fresh M M.pinit := ⟨fun l => rfl, fun t l => by simp [Machine.pinit]⟩

theorem prun_append (as bs : List (PAct A)) (p p' : PState S W) (h : M.prun p as = some p') : M.prun p (as ++ bs) = M.prun p' bs := by
  induction as generalizing p with
  | nil => simp only [Machine.prun, Option.some.injEq] at h; rw [h]; rfl
  | cons a as ih =>
    simp only [Machine.prun] at h
    simp only [List.cons_append, Machine.prun]
    split at h
    · cases h
    · exact ih _ h

theorem Leads.refl {p : PState S W} (hf : Fresh M p) : Leads M p p [] := ⟨⟨[], rfl⟩, by simp, hf⟩

theorem Leads.trans {p q r : PState S W} {es fs : List Ev} (h : Leads M p q es) (h' : Leads M q r fs) : Leads M p r (es ++ fs) := by
  obtain ⟨⟨as, h1⟩, h2, h3⟩ := h
  obtain ⟨⟨bs, h4⟩, h5, h6⟩ := h'
  exact ⟨⟨as ++ bs, by rw [prun_append as bs p q h1, h4]⟩, by rw [h5, h2, List.append_assoc], h6⟩

theorem Leads.call {p q : PState S W} {es : List Ev} (h : Leads M p q es) (hf : M.Frame) (a : A) :
    Leads M p { q with s := M.call q.s a } es := by
  have := h.trans (r := { q with s := M.call q.s a }) (fs := []) ⟨⟨[.call a], rfl⟩, by simp, fresh_call hf h.fresh a⟩
  simpa using this

theorem Leads.step {p q : PState S W} {es : List Ev} (h : Leads M p q es) (hf : M.Frame) {t : Nat} {a : Acc} {s' : S}
    (ha : M.acc t q.s = some a) (hs : M.step t q.s = some s') : ∃ n q', Leads M p q' (es ++ [a.ev t n]) ∧ q'.s = s' := by
  obtain ⟨n, q', h1, h2, h3, h4⟩ := fresh_go hf h.fresh ha hs
  exact ⟨n, q', h.trans ⟨⟨[.step t n], by simp [Machine.prun, h1]⟩, h3, h4⟩, h2⟩

end

/-- A value is sent. -/
theorem send1 {o : Ords} {ok : State k τ ε → Bool} (hok : Lets cap ok) (hcap : cap < 2 ^ k) {p q : PState (State k τ ε) (Word k)}
    {es : List Ev} (hq : Leads (guarded k τ ε cap o ok) p q es) {l c : Nat} (hl : l < cap) (hc : c < cap) (h : Quiet q.s l c) (v : τ) :
    ∃ n q', Leads (guarded k τ ε cap o ok) p q'
        (es ++ [⟨0, 0, .load false n⟩, ⟨0, 4 + addCursor c l cap, .write⟩, ⟨0, 0, .rmw o.push.acq o.push.rel⟩]) ∧
      Quiet q'.s (l + 1) c ∧ q'.s.buf (addCursor c l cap) = some v := by
  obtain ⟨a1, a2, a3, a4, a5, a6, a7, a8, a9, a10, a11, a12⟩ := h
  have hfr := frame (k := k) (τ := τ) (ε := ε) (cap := cap) ok o
  have hs : addCursor c l cap < cap := addCursor_lt hc (by omega)
  have h1 := hq.call hfr (.inl (.trySend v))
  have hcall : (guarded k τ ε cap o ok).call q.s (.inl (.trySend v)) = { q.s with spc := .tsLoad v }.emit (.callSend v) := by
    simp [guarded, a1, SPc.isIdle, sCall]
  rw [hcall] at h1
  obtain ⟨n, q2, h2, e2⟩ := h1.step hfr (t := 0) (a := .load 0 false)
    (s' := { q.s with spc := .wrWrite v (addCursor c l cap) }.emit (.callSend v)) rfl (by
      have : ok ({ q.s with spc := .tsLoad v }.emit (.callSend v)) = true := hok _ a2
      simp only [guarded, this, if_true]
      simp [sStep, SPc.resting, State.emit, a3, a11, a12, show ¬ l = cap by omega])
  obtain ⟨n', q3, h3, e3⟩ := h2.step hfr (t := 0) (a := .other (4 + addCursor c l cap) .write)
    (s' := { q.s with spc := .wrRmw v (addCursor c l cap), buf := upd q.s.buf (addCursor c l cap) (some v) }.emit (.callSend v))
    (by rw [e2]; rfl) (by
      have : ok q2.s = true := hok _ (by rw [e2]; exact a2)
      simp only [guarded, this, if_true]
      rw [e2]
      simp [sStep, SPc.resting, State.emit, a3, show ¬ cap ≤ addCursor c l cap by omega])
  obtain ⟨n'', q4, h4, e4⟩ := h3.step hfr (t := 0) (a := .rmw 0 o.push)
    (s' := ({ q.s with st := addLength q.s.st, spc := .idle, buf := upd q.s.buf (addCursor c l cap) (some v) }.emit (.callSend v)).emit (.push v))
    (by rw [e3]; rfl) (by
      have : ok q3.s = true := hok _ (by rw [e3]; exact a2)
      simp only [guarded, this, if_true]
      rw [e3]
      simp [sStep, SPc.resting, a3, a4, a5, State.emit])
  refine ⟨n, q4, by simpa only [Acc.ev, List.append_assoc, List.cons_append, List.nil_append] using h4, ?_, by rw [e4]; simp [upd, State.emit]⟩
  have i1 := len_addLength (st := q.s.st) (by omega)
  have i2 := cur_addLength (st := q.s.st) (by omega)
  rw [a4, if_neg (by decide)] at i1
  rw [e4]
  refine ⟨rfl, a2, a3, ?_, ?_, ?_, ?_, ?_, ?_, a10, ?_, by rw [← a12]; exact i2⟩
  · rw [← a4]; exact has_addLength_CLOSED _
  · rw [← a5]; exact has_addLength_RX _
  · rw [← a6]; exact has_addLength_ERR _
  · rw [← a7]; exact has_addLength_HALF _
  · rw [← a8]; exact has_addLength_READY _
  · rw [← a9]; exact has_addLength_FLUSH _
  · rw [← a11]; exact i1

/-- The receiver claims the oldest value. -/
theorem claim1 {o : Ords} {ok : State k τ ε → Bool} (hcap : cap < 2 ^ k) {p q : PState (State k τ ε) (Word k)}
    {es : List Ev} (hq : Leads (guarded k τ ε cap o ok) p q es) {l c : Nat} (hl : 0 < l) (hc : c < cap) (h : Quiet q.s l c) :
    ∃ q', Leads (guarded k τ ε cap o ok) p q' (es ++ [⟨1, 0, .rmw o.tryNext.acq o.tryNext.rel⟩]) ∧
      Quiet { q'.s with rpc := .idle } (l - 1) (addCursor c 1 cap) ∧ q'.s.rpc = .tvRead c ∧ q'.s.buf = q.s.buf := by
  obtain ⟨a1, a2, a3, a4, a5, a6, a7, a8, a9, a10, a11, a12⟩ := h
  have hfr := frame (k := k) (τ := τ) (ε := ε) (cap := cap) ok o
  have h1 := hq.call hfr (.inr .tryNext)
  have hcall : (guarded k τ ε cap o ok).call q.s (.inr .tryNext) = { q.s with rpc := .tnRmw } := by
    simp [guarded, a2, RPc.isIdle, rCall]
  rw [hcall] at h1
  have hw : shouldWake cap q.s.st = false := by simp [shouldWake, hasKind, a8, a9]
  obtain ⟨n, q2, h2, e2⟩ := h1.step hfr (t := 1) (a := .rmw 0 o.tryNext)
    (s' := { q.s with st := take cap q.s.st, rpc := .tvRead c }.emit .claimRx) rfl (by
      simp only [guarded, rStep, RPc.resting, takeValue]
      simp [a3, a11, a12, hl, hw, a6, State.emit])
  have e3 : q2.s.st = take cap q.s.st := by rw [e2]; rfl
  refine ⟨q2, by simpa only [Acc.ev] using h2, ?_, by rw [e2]; rfl, by rw [e2]; rfl⟩
  have i1 := len_take (st := q.s.st) (cap := cap) (by omega) (by omega)
  have i2 := cur_take (st := q.s.st) (cap := cap) (by omega) (by omega)
  rw [a11, if_pos hl, a12] at i2
  rw [a11] at i1
  refine ⟨by rw [e2]; exact a1, rfl, by rw [e2]; exact a3, ?_, ?_, ?_, ?_, ?_, ?_, by rw [e2]; exact a10, (congrArg Ring.len e3).trans i1, (congrArg Ring.cur e3).trans i2⟩
  · exact (congrArg (has · (CLOSED k)) e3).trans ((has_take_CLOSED cap _).trans a4)
  · exact (congrArg (has · (RX k)) e3).trans ((has_take_RX cap _).trans a5)
  · exact (congrArg (has · (ERR k)) e3).trans (has_take_ERR cap _)
  · exact (congrArg (has · (HALF k)) e3).trans ((has_take_HALF cap _).trans a7)
  · exact (congrArg (has · (READY k)) e3).trans ((has_take_READY cap _).trans a8)
  · exact (congrArg (has · (FLUSH k)) e3).trans ((has_take_FLUSH cap _).trans a9)

/-- The receiver reads the value. -/
theorem read1 {o : Ords} {ok : State k τ ε → Bool} {p q : PState (State k τ ε) (Word k)}
    {es : List Ev} (hq : Leads (guarded k τ ε cap o ok) p q es) {l c : Nat} {i : Nat} {v : τ} (hr : q.s.rpc = .tvRead i) (hi : i < cap)
    (h : Quiet { q.s with rpc := .idle } l c) (hb : q.s.buf i = some v) :
    ∃ q', Leads (guarded k τ ε cap o ok) p q' (es ++ [⟨1, 4 + i, .read⟩]) ∧ Quiet q'.s l c := by
  obtain ⟨a1, a2, a3, a4, a5, a6, a7, a8, a9, a10, a11, a12⟩ := h
  have hfr := frame (k := k) (τ := τ) (ε := ε) (cap := cap) ok o
  obtain ⟨n, q2, h2, e2⟩ := hq.step hfr (t := 1) (a := .other (4 + i) .read)
    (s' := { q.s with buf := upd q.s.buf i none, rpc := .idle }.emit (.recv v)) (by simp [guarded, hr, rAcc]) (by
      simp only [guarded, rStep, RPc.resting, hr, Bool.false_eq_true, if_false]
      rw [show q.s.freed = false from a3]
      simp [hb, show ¬ cap ≤ i by omega, State.emit])
  exact ⟨q2, by simpa only [Acc.ev] using h2, by rw [e2]; exact ⟨a1, rfl, a3, a4, a5, a6, a7, a8, a9, a10, a11, a12⟩⟩

/-- Many values are sent; the last one is the one sent to slot `addCursor c (l + m) cap`. -/
theorem sendMany {o : Ords} {ok : State k τ ε → Bool} (hok : Lets cap ok) (hcap : cap < 2 ^ k) {p q : PState (State k τ ε) (Word k)}
    {es : List Ev} (hq : Leads (guarded k τ ε cap o ok) p q es) {l c : Nat} (hc : c < cap) (h : Quiet q.s l c) (v : τ) (m : Nat)
    (hl : l + m ≤ cap) :
    ∃ fs q', Leads (guarded k τ ε cap o ok) p q' (es ++ fs) ∧ Quiet q'.s (l + m) c ∧ fs.all (fun e => e.tid == 0) = true ∧
      (0 < m → (∃ gs, fs = gs ++ [⟨0, 4 + addCursor c (l + m - 1) cap, .write⟩, ⟨0, 0, .rmw o.push.acq o.push.rel⟩]) ∧
        q'.s.buf (addCursor c (l + m - 1) cap) = some v) := by
  induction m with
  | zero => exact ⟨[], q, by simpa using hq, h, rfl, by omega⟩
  | succ m ih =>
    obtain ⟨fs, q', h1, h2, h3, -⟩ := ih (by omega)
    obtain ⟨n, q'', h4, h5, h6⟩ := send1 hok hcap h1 (by omega) hc h2 v
    refine ⟨fs ++ [⟨0, 0, .load false n⟩, ⟨0, 4 + addCursor c (l + m) cap, .write⟩, ⟨0, 0, .rmw o.push.acq o.push.rel⟩], q'',
      by simpa [List.append_assoc] using h4, by rw [← Nat.add_assoc]; exact h5, by simp [List.all_append, h3], fun _ => ⟨⟨fs ++ [⟨0, 0, .load false n⟩], ?_⟩, ?_⟩⟩
    · simp [List.append_assoc]
    · exact h6

/-- The sender waits and the receiver closes. -/
theorem waits {o : Ords} {ok : State k τ ε → Bool} (hok : Lets cap ok) (h0 : 0 < cap) {p q : PState (State k τ ε) (Word k)}
    {es : List Ev} (hq : Leads (guarded k τ ε cap o ok) p q es) {c : Nat} (h : Quiet q.s cap c) (κ : Kind) :
    ∃ n q', Leads (guarded k τ ε cap o ok) p q' (es ++ [⟨0, 0, .load false n⟩, ⟨0, 3, .write⟩, ⟨0, 0, .rmw (o.wait κ).acq (o.wait κ).rel⟩,
      ⟨1, 0, .rmw o.close.acq o.close.rel⟩, ⟨1, 3, .read⟩]) := by
  obtain ⟨a1, a2, a3, a4, a5, a6, a7, a8, a9, ⟨-, -, a10⟩, a11, a12⟩ := h
  have hfr := frame (k := k) (τ := τ) (ε := ε) (cap := cap) ok o
  have hw : hasWaker q.s.st = false := by simp [hasWaker, a8, a9]
  have hk : hasKind κ q.s.st = false := by cases κ <;> simp [hasKind, a8, a9]
  have hr : pollReady cap κ q.s.st = false := by
    cases κ <;> simp only [pollReady, a11]
    · simp
    · simpa using (by omega : cap ≠ 0)
  have h1 := hq.call hfr (.inl (.poll κ 0))
  have hcall : (guarded k τ ε cap o ok).call q.s (.inl (.poll κ 0)) = { q.s with spc := .pLoad κ 0 } := by
    simp [guarded, a1, SPc.isIdle, sCall]
  rw [hcall] at h1
  obtain ⟨n, q2, h2, e2⟩ := h1.step hfr (t := 0) (a := .load 0 false) (s' := { q.s with spc := .pWrite κ 0 }) rfl (by
      have : ok { q.s with spc := .pLoad κ 0 } = true := hok _ a2
      simp only [guarded, this, if_true]
      simp [sStep, SPc.resting, a3, a4, hr, hk, hw])
  obtain ⟨n', q3, h3, e3⟩ := h2.step hfr (t := 0) (a := .other 3 .write)
    (s' := { q.s with txw := some 0, spc := .pRmw κ 0 true }.emit (.storeTx 0)) (by rw [e2]; rfl) (by
      have : ok q2.s = true := hok _ (by rw [e2]; exact a2)
      simp only [guarded, this, if_true]
      rw [e2]
      simp [sStep, SPc.resting, State.emit, a3, a10])
  obtain ⟨n'', q4, h4, e4⟩ := h3.step hfr (t := 0) (a := .rmw 0 (o.wait κ))
    (s' := ({ q.s with txw := some 0, st := setKind κ q.s.st, spc := .idle }.emit (.storeTx 0)).emit (.pollPending κ 0))
    (by rw [e3]; rfl) (by
      have : ok q3.s = true := hok _ (by rw [e3]; exact a2)
      simp only [guarded, this, if_true]
      rw [e3]
      simp [sStep, SPc.resting, a3, a4, hr, State.emit])
  have h5 := h4.call hfr (.inr .close)
  have hcall : (guarded k τ ε cap o ok).call q4.s (.inr .close) = { q4.s with rpc := .clRmw } := by
    rw [e4]; simp [guarded, State.emit, a2, RPc.isIdle, rCall]
  rw [hcall] at h5
  have f1 : q4.s.st = setKind κ q.s.st := by rw [e4]; rfl
  have f2 : q4.s.freed = false := by rw [e4]; exact a3
  have f3 : q4.s.txw = some 0 := by rw [e4]; rfl
  have f4 : has q4.s.st (CLOSED k) = false := by rw [f1, has_setKind_CLOSED]; exact a4
  have f5 : hasWaker q4.s.st = true := by rw [f1, hasWaker_setKind]
  obtain ⟨m, q5, h6, e6⟩ := h5.step hfr (t := 1) (a := .rmw 0 o.close)
    (s' := { { q4.s with st := q4.s.st ||| CLOSED k }.emit .closed with rpc := .clWaker q4.s.st }) rfl (by
      simp [guarded, rStep, RPc.resting, f2, f4, f5, State.emit])
  obtain ⟨m', q6, h7, e7⟩ := h6.step hfr (t := 1) (a := .other 3 .read)
    (s' := if has q4.s.st (HALF k) then { q5.s with txw := none, rpc := .idle }.emit (.dropTx 0) else { q5.s with txw := none, rpc := .idle }.emit (.wakeTx 0))
    (by rw [e6]; rfl) (by
      rw [e6]
      simp only [guarded, rStep, RPc.resting, Bool.false_eq_true, if_false, State.emit, f2, f3]
      split <;> rfl)
  exact ⟨n, q6, by simpa only [Acc.ev, List.append_assoc, List.cons_append, List.nil_append] using h7⟩

end Verif.Ring
