import Verif.Oneshot.LogRecv
import Verif.Oneshot.LogWake
/-! # Properties of the oneshot channel (C19–C23)

All theorems are about every schedule of the two ends, at the granularity of
single accesses to the shared object, unless they say otherwise. -/
namespace Verif.Oneshot

open Verif.Spsc

variable {α : Type}

private theorem reach {acts : List (Act α)} {s : State α} (h : run (init α) acts = some s) :
    (Inv s ∨ Doomed s) ∧ LogA s ∧ LogB s :=
  ⟨(run_ind (P := fun _ => True) (fun _ _ _ _ _ _ => trivial) (.inl (init_inv α)) trivial h).1,
    (run_ind step_logA (.inl (init_inv α)) (init_logA α) h).2,
    (run_ind step_logB (.inl (init_inv α)) (init_logB α) h).2⟩

private theorem freed_past {log : List (Event α)} (h : Hist log) (f : frees log ≠ 0) :
    SenderLeft log ∧ Event.closed ∈ log := by
  induction log with
  | nil => simp [frees] at f
  | cons e p ih =>
    cases e <;> simp only [frees, Hist, SenderLeft, sends, List.mem_cons, reduceCtorEq, false_or, true_or] at *
    all_goals first
      | exact ih h.2 f
      | (refine ⟨?_, (ih h.2 f).2⟩; simp)
      | (refine ⟨(ih h.2 f).1, ?_⟩; simp)
      | skip
    all_goals first
      | exact ⟨h.1.1, h.1.2.1⟩
      | simp

private theorem idle_inv {acts : List (Act α)} {s : State α} (h : run (init α) acts = some s)
    (hr : s.rpc = .idle) : Inv s := by
  rcases (reach h).1 with i | d
  · exact i
  · rcases d.2 with ⟨_, d⟩ | ⟨d, _⟩ <;> simp [hr, RPc.leaving, rGone] at d

private theorem eq_gone {spc : SPc α} (h : sGone spc = true) : spc = .gone := by
  cases spc <;> simp [sGone] at h; rfl

private theorem resting_done {spc : SPc α} (h : spc.resting = true) (h' : sDone spc = true) : spc = .gone := by
  cases spc <;> simp [SPc.resting, sDone] at h h'; rfl

private theorem resting_cases {spc : SPc α} (h : spc.resting = true) : spc = .idle ∨ spc = .gone := by
  cases spc <;> simp [SPc.resting] at h <;> simp

private theorem eq_nil_of {β : Type} {l : List β} (h : l ≠ [] → False) : l = [] :=
  Classical.byContradiction h

private theorem none_of {β : Type} {o : Option β} (h : o.isSome = false) : o = none := by
  cases o <;> simp at h; rfl

/-- A schedule: poll (pending), send 7, poll. -/
def demo : List (Act Nat) :=
  [.rCall (.poll 1), .rStep, .rStep, .rStep, .sCall (.send 7), .sStep, .sStep, .sStep,
    .rCall (.poll 2), .rStep, .rStep]

/-! ## C19 -/

/-- At most one value is sent, at most one received, and only the one sent. A
finished `send` either returned `Ok`, and then the value is not handed back, or
handed back exactly the value, and then nobody else gets it. Once both ends are
gone, the value went exactly one way. -/
theorem C19_delivery {acts : List (Act α)} {s : State α} (h : run (init α) acts = some s) :
    (sends s.log).length ≤ 1 ∧
    (received s.log).length + (droppedValues s.log).length + (returned s.log).length ≤ (sends s.log).length ∧
    (∀ v, v ∈ received s.log ∨ v ∈ droppedValues s.log ∨ v ∈ returned s.log → v ∈ sends s.log) ∧
    (s.spc = .gone → sends s.log ≠ [] →
      (Event.sendOk ∈ s.log ∧ returned s.log = []) ∨
      (Event.sendOk ∉ s.log ∧ returned s.log = sends s.log ∧ received s.log = [] ∧ droppedValues s.log = [])) ∧
    (s.spc = .gone → s.rpc = .gone →
      received s.log ++ droppedValues s.log ++ returned s.log = sends s.log) := by
  obtain ⟨g, a, -⟩ := reach h
  have hv := a.vals
  have h1 := a.one
  have hl := congrArg List.length hv
  simp only [List.length_append] at hl
  refine ⟨h1, by omega, ?_, ?_, ?_⟩
  · rintro v hvv
    rw [hv]
    simp only [List.mem_append]
    grind
  · intro hg hs
    have hok := a.ok
    rcases a.gone (by simp [hg, sGone]) with hd | ⟨-, ho | hr⟩
    · exact absurd (a.drop1 hd).1 hs
    · exact .inl ⟨ho, (hok ho).2.1⟩
    · right
      have hr' := List.length_pos_iff.2 hr
      have e1 : received s.log = [] := List.eq_nil_of_length_eq_zero (by omega)
      have e2 : droppedValues s.log = [] := List.eq_nil_of_length_eq_zero (by omega)
      have e3 : s.data.toList = [] := List.eq_nil_of_length_eq_zero (by omega)
      refine ⟨(a.ret hr).2.2, ?_, e1, e2⟩
      rw [hv, e1, e2, e3, hg]
      simp [sVal]
  · intro hg hr
    rcases g with i | d
    · have hd := i.data
      have hc := i.closed
      rw [hg, hr] at hd
      simp only [sWritten, rDone, rRead, sFail] at hd
      have : s.data = none := by cases hdd : s.data <;> simp_all
      rw [hv, this, hg]
      simp [sVal]
    · rcases d.2 with ⟨_, d⟩ | ⟨_, d⟩ <;> simp [hr, hg, RPc.leaving, SPc.leaving] at d

example : (run (init Nat) demo).map (fun s => (sends s.log, received s.log)) = some ([7], [7]) := by decide +kernel
example : (run (init Nat) demo).map (fun s => decide (Event.sendOk ∈ s.log)) = some true := by decide +kernel
/-- A failed send hands the value back. -/
example : (run (init Nat) [.rCall .close, .rStep, .sCall (.send 7), .sStep, .sStep, .sStep]).map
    (fun s => (returned s.log, received s.log)) = some ([7], []) := by decide +kernel
/-- A value nobody received is dropped. -/
example : (run (init Nat) [.sCall (.send 7), .sStep, .sStep, .rCall .drop, .rStep, .rStep, .rStep]).map
    (fun s => (droppedValues s.log, s.spc, s.rpc)) = some ([7], .gone, .gone) := by decide +kernel

/-! ## C20 -/

/-- Every result is right about the history before it (`Ok`). In particular: a
`send` called after the close never returns `Ok`, and its value is neither
received nor dropped by the receiver; cancellation is reported only if the sender
left or the channel was closed and every sent value was received. -/
theorem C20_history {acts : List (Act α)} {s : State α} (h : run (init α) acts = some s) : Hist s.log :=
  (reach h).2.1.hist

example : (run (init Nat) demo).map (fun s => s.log.length) = some 6 := by decide +kernel

/-- A `send` called on a closed channel that has returned, returned the value in
an error, and nobody else got it. -/
theorem C20_send_after_close {acts acts' : List (Act α)} {s s' : State α} {v : α}
    (h : run (init α) acts = some s) (hc : Event.closed ∈ s.log)
    (hi : s.spc = .idle) (h' : run (sCall s (.send v)) acts' = some s') (hg : s'.spc = .gone) :
    returned s'.log = [v] ∧ Event.sendErr v ∈ s'.log ∧ Event.sendOk ∉ s'.log ∧
      received s'.log = [] ∧ droppedValues s'.log = [] := by
  obtain ⟨g, a, -⟩ := reach h
  -- the sender is idle, so the state is not doomed
  have inv : Inv s := by
    rcases g with i | d
    · exact i
    · rcases d.2 with ⟨d, _⟩ | ⟨_, d⟩ <;> simp [hi, SPc.leaving, sGone] at d
  have hidle : s.spc.isIdle = true := by simp [hi, SPc.isIdle]
  -- what is kept from the call on
  let P : State α → Prop := fun t => LogA t ∧ ¬ calledOpen t.log ∧ sends t.log = [v] ∧
    (∀ u, returned t.log = [u] → Event.sendErr u ∈ t.log)
  have p0 : P (sCall s (.send v)) := by
    refine ⟨sCall_logA inv a hidle _, ?_, ?_, ?_⟩
    · simp [sCall, State.emit, calledOpen, hc]
    · simp [sCall, State.emit, sends, a.unsent (by simp [hi, sSend]) (by simp [hi, sGone])]
    · intro u hu
      simp only [sCall, State.emit, returned] at hu
      have := a.ret (by simp [hu])
      simp [hi, sGone] at this
  have hp : ∀ t b t', Inv t → P t → step t b = some t' → P t' := by
    rintro t b t' it ⟨q1, q2, q3, q4⟩ hb
    have q1' := step_logA t b t' it q1 hb
    -- no second call, and `calledOpen` does not change
    have key : ∀ l : List (Event α), (∃ l', l = l' ++ t.log ∧ ∀ u, Event.sendCall u ∉ l') →
        (calledOpen l → calledOpen t.log) ∧ sends l = sends t.log := by
      rintro l ⟨l', rfl, hl'⟩
      induction l' with
      | nil => exact ⟨id, rfl⟩
      | cons e l' ih =>
        have ih := ih (fun u hu => hl' u (List.mem_cons_of_mem _ hu))
        cases e <;> first
          | exact ih
          | (exact absurd (List.mem_cons_self ..) (hl' _))
    have ext : ∃ l', t'.log = l' ++ t.log ∧ (∀ u, Event.sendCall u ∉ l') ∧
        (∀ u, u ∈ returned l' → Event.sendErr u ∈ l') := by
      have hnot : t.spc.isIdle = false := by
        cases hs : t.spc.isIdle with
        | false => rfl
        | true =>
          have : sends t.log = [] := q1.unsent (by cases ht : t.spc <;> simp_all [SPc.isIdle, sSend])
            (by cases ht : t.spc <;> simp_all [SPc.isIdle, sGone])
          simp [q3] at this
      clear q1 q1' q2 q3 q4 key it
      obtain ⟨st, data, rxw, txw, freed, spc, rpc, log⟩ := t
      dsimp only at *
      cases b with
      | sCall op =>
        simp [step, hnot] at hb
        exact ⟨[], by simp [← hb], by simp, by simp [returned]⟩
      | rCall op =>
        simp only [step] at hb
        split at hb <;> simp at hb <;> subst hb
        · exact ⟨[], by cases op <;> simp [rCall], by simp, by simp [returned]⟩
        · exact ⟨[], rfl, by simp, by simp [returned]⟩
      | sStep =>
        simp only [step, sStep, sendTail, State.emit, State.release] at hb
        repeat' split at hb
        all_goals first
          | (simp at hb; done)
          | (simp at hb; subst hb; first
              | exact ⟨[], rfl, by simp, by simp [returned]⟩
              | exact ⟨[_], rfl, by simp, by simp [returned]⟩
              | exact ⟨[_, _], rfl, by simp, by simp [returned]⟩)
      | rStep =>
        simp only [step, rStep, dropTail, State.emit, State.release] at hb
        repeat' split at hb
        all_goals first
          | (simp at hb; done)
          | (simp at hb; subst hb; first
              | exact ⟨[], rfl, by simp, by simp [returned]⟩
              | exact ⟨[_], rfl, by simp, by simp [returned]⟩
              | exact ⟨[_, _], rfl, by simp, by simp [returned]⟩)
    obtain ⟨l', e1, e2, e3⟩ := ext
    obtain ⟨k1, k2⟩ := key t'.log ⟨l', e1, e2⟩
    refine ⟨q1', fun hh => q2 (k1 hh), k2.trans q3, ?_⟩
    intro u hu
    have hret : ∀ l₁ l₂ : List (Event α), returned (l₁ ++ l₂) = returned l₁ ++ returned l₂ := by
      intro l₁ l₂
      induction l₁ with
      | nil => rfl
      | cons e l ih => cases e <;> simp [returned, ih]
    rw [e1, hret] at hu
    rw [e1, List.mem_append]
    rcases List.append_eq_singleton_iff.1 hu with ⟨_, hu⟩ | ⟨hu, _⟩
    · exact .inr (q4 u hu)
    · exact .inl (e3 u (by simp [hu]))
  obtain ⟨g', a', no, hs, he⟩ := run_ind hp (.inl (sCall_inv inv hidle (.send v))) p0 h'
  have hno : Event.sendOk ∉ s'.log := fun hh => no (a'.openO hh)
  rcases a'.gone (by simp [hg, sGone]) with hd | ⟨-, ho | hr⟩
  · have := (a'.drop1 hd).1
    simp [hs] at this
  · exact absurd ho hno
  · have hv := a'.vals
    have hl := congrArg List.length hv
    have hr' := List.length_pos_iff.2 hr
    simp only [List.length_append, hs, List.length_singleton] at hl
    have e1 : received s'.log = [] := List.eq_nil_of_length_eq_zero (by omega)
    have e2 : droppedValues s'.log = [] := List.eq_nil_of_length_eq_zero (by omega)
    have e3 : s'.data.toList = [] := List.eq_nil_of_length_eq_zero (by omega)
    rw [hs, e1, e2, e3, hg] at hv
    simp [sVal] at hv
    exact ⟨hv.symm, he v hv.symm, hno, e1, e2⟩

example : (run (init Nat) [.rCall .close, .rStep]).map (fun s => (s.log, s.spc)) = some ([.closed], .idle) := by
  decide +kernel

/-- What `try_recv` and `poll` return when the sender is not in the middle of a
call: the value if one was sent and not yet received — closed or not —, otherwise
`Canceled` if the channel is closed or the sender left, otherwise nothing. -/
theorem C20_receive {acts : List (Act α)} {s : State α} (h : run (init α) acts = some s)
    (hr : s.rpc = .idle) (hs : s.spc.resting = true) :
    (∀ v, Event.sendOk ∈ s.log → received s.log = [] → sends s.log = [v] →
      (run s [.rCall .tryRecv, .rStep, .rStep]).map (·.log) = some (.recv v :: s.log) ∧
      ∀ w, (run s [.rCall (.poll w), .rStep, .rStep]).map (·.log) = some (.recv v :: s.log)) ∧
    ((Event.sendOk ∈ s.log → received s.log ≠ []) → (Event.closed ∈ s.log ∨ SenderLeft s.log) →
      (run s [.rCall .tryRecv, .rStep]).map (·.log) = some (.recvCanceled :: s.log) ∧
      (∀ w, (run s [.rCall (.poll w), .rStep]).map (·.log) = some (.recvCanceled :: s.log))) ∧
    (Event.closed ∉ s.log → ¬ SenderLeft s.log →
      (run s [.rCall .tryRecv, .rStep]).map (·.log) = some (.recvNone :: s.log) ∧
      ∀ w, ∃ s', run s [.rCall (.poll w), .rStep, .rStep, .rStep] = some s' ∧ .pending w ∈ s'.log) := by
  have inv := idle_inv h hr
  obtain ⟨-, a, b⟩ := reach h
  have hv := a.vals
  have hdata := inv.data
  have hhalf := inv.half
  have hdOk := inv.dOk
  have hf := inv.freed
  have hrxw := inv.rxw
  have hrd := a.rdrop
  have hcl := a.closed
  have hgone := a.gone
  have hok := a.ok
  have hret := a.ret
  have hdrop := a.drop1
  have huns := a.unsent
  obtain ⟨st, data, rxw, txw, freed, spc, rpc, log⟩ := s
  dsimp only at hr hs hv hdata hhalf hdOk hf hrd hcl hrxw hgone hok hret hdrop huns ⊢
  subst hr
  simp only [rDone, rRead, rGone, rRx] at hdata hhalf hf hrd hrxw
  have hf' : freed = false := by simpa using hf
  subst hf'
  refine ⟨?_, ?_, ?_⟩
  · intro v ho hrec hsv
    obtain ⟨o1, o2, -⟩ := hok ho
    have hspc : spc = .gone := eq_gone o1
    subst hspc
    have hd0 : droppedValues log = [] := eq_nil_of fun hh => by simpa using hrd hh
    have hval : data = some v := by
      rw [hsv, o2, hrec, hd0] at hv
      cases data <;> simp [sVal] at hv
      simp [hv]
    subst hval
    have hD : has st DATA = true := by simpa [sWritten, sFail] using hdata
    simp [run, step, rCall, RPc.isIdle, rStep, RPc.resting, State.emit, hD]
  · intro hno hcs
    have hD : has st DATA = false := by
      cases hD : has st DATA with
      | false => rfl
      | true =>
        exfalso
        obtain ⟨d1, d2⟩ := hdOk (.inl hD)
        have hspc : spc = .gone := resting_done hs d1
        subst hspc
        have hd1 : data.isSome = true := by simpa [sWritten, sFail, hD] using hdata
        obtain ⟨v, rfl⟩ := Option.isSome_iff_exists.1 hd1
        obtain ⟨-, hv2⟩ := vals_one hv a.one
        obtain ⟨e1, -, e2, e3, e4⟩ := hv2 (by simp)
        rcases hgone rfl with hd | ⟨-, ho | hrr⟩
        · have := (hdrop hd).1
          simp [e1] at this
        · exact hno ho e2
        · exact hrr e4
    have hHC : (has st HALF || has st CLOSED) = true := by
      rcases hcs with hc | hl
      · simp [hcl.1 hc]
      · have : sDone spc = true := by
          rcases resting_cases hs with rfl | rfl
          · rcases hl with hl | hl
            · exact absurd (huns rfl rfl) hl
            · simpa [sDrop, sGone] using (hdrop hl).2
          · rfl
        simp [hhalf, this]
    simp [run, step, rCall, RPc.isIdle, rStep, RPc.resting, State.emit, hD, hHC]
  · intro hc hl
    have hspc : spc = .idle := by
      cases spc <;> simp [SPc.resting] at hs
      · rfl
      · exfalso
        rcases hgone rfl with hd | ⟨hd, -⟩
        · exact hl (.inr hd)
        · exact hl (.inl hd)
    subst hspc
    have hD : has st DATA = false := by
      cases hD : has st DATA with
      | false => rfl
      | true => simpa [sDone] using (hdOk (.inl hD)).1
    have hH : has st HALF = false := by simpa [sDone] using hhalf
    have hC : has st CLOSED = false := by
      cases hC : has st CLOSED with
      | false => rfl
      | true => exact absurd (hcl.2 hC) hc
    refine ⟨by simp [run, step, rCall, RPc.isIdle, rStep, RPc.resting, State.emit, hD, hH, hC], ?_⟩
    intro w
    cases hR : has st RX with
    | true => exact ⟨_, by simp [run, step, rCall, RPc.isIdle, rStep, RPc.resting, State.emit, hD, hH, hC, hR]; rfl, by simp⟩
    | false =>
      have hrx : rxw = none := none_of (by simpa [hR] using hrxw)
      subst hrx
      have hH' : has (st &&& ~~~DATA) HALF = false := by flag_simp; exact hH
      exact ⟨_, by simp [run, step, rCall, RPc.isIdle, rStep, RPc.resting, State.emit, hD, hH, hC, hR, hH']; rfl, by simp⟩

/-- The three cases occur. -/
example : (run (init Nat) [.sCall (.send 7), .sStep, .sStep, .rCall .close, .rStep]).map
    (fun s => (s.rpc, s.spc, s.log)) = some (.idle, .gone, [.closed, .sendOk, .sendCall 7]) := by decide +kernel
example : (run (init Nat) [.sCall .drop, .sStep]).map
    (fun s => (s.rpc, s.spc, s.log)) = some (.idle, .gone, [.sDropped]) := by decide +kernel

/-- `is_terminated` under the same conditions: true exactly if the next receive
would report cancellation. -/
theorem C20_is_terminated {acts : List (Act α)} {s : State α} (h : run (init α) acts = some s)
    (hr : s.rpc = .idle) :
    ∃ b, (run s [.rCall .isTerminated, .rStep]).map (·.log) = some (.terminated b :: s.log) ∧
      (b = true ↔ (run s [.rCall .tryRecv, .rStep]).map (·.log) = some (.recvCanceled :: s.log)) := by
  have inv := idle_inv h hr
  have hf := inv.freed
  obtain ⟨st, data, rxw, txw, freed, spc, rpc, log⟩ := s
  dsimp only at hr hf
  subst hr
  have hf' : freed = false := by simpa [rGone] using hf
  subst hf'
  refine ⟨(has st HALF || has st CLOSED) && !has st DATA, ?_, ?_⟩
  · simp [run, step, rCall, RPc.isIdle, rStep, RPc.resting, State.emit]
  · cases h1 : has st DATA <;> cases h2 : has st HALF <;> cases h3 : has st CLOSED <;>
      simp [run, step, rCall, RPc.isIdle, rStep, RPc.resting, State.emit, h1, h2, h3]

example : (run (init Nat) [.rCall .close, .rStep, .rCall .isTerminated, .rStep]).map (·.log) =
    some [.terminated true, .closed] := by decide +kernel
example : (run (init Nat) [.rCall .isTerminated, .rStep]).map (·.log) = some [.terminated false] := by decide +kernel

/-! ## C21 -/

/-- C21 for the receiver: once the sender has left an open channel, the waker of
the last pending poll was woken. -/
def LatestWaker (α : Type) : Prop :=
  ∀ (acts : List (Act α)) (s : State α) (w : Waker), run (init α) acts = some s →
    (pendings s.log).head? = some w → Event.closed ∉ s.log → s.spc = .gone → w ∈ rxWoken s.log

/-- C21 for the sender: once the channel is closed and the receiver's call has
returned, the waker of the last pending `poll_canceled` was woken. -/
def LatestCancelWaker (α : Type) : Prop :=
  ∀ (acts : List (Act α)) (s : State α) (w : Waker), run (init α) acts = some s →
    (cancelPendings s.log).head? = some w → Event.closed ∈ s.log → s.rpc.resting = true →
    ¬ SenderLeft s.log → w ∈ txWoken s.log

/-- C21 is false: a second poll with another waker keeps the first one, and only
that one is woken. -/
theorem C21_false : ¬ LatestWaker Nat := by
  intro h
  have := h [.rCall (.poll 1), .rStep, .rStep, .rStep, .rCall (.poll 2), .rStep,
    .sCall (.send 7), .sStep, .sStep, .sStep] _ 2 rfl (by decide +kernel) (by decide +kernel) (by decide +kernel)
  exact absurd this (by decide +kernel)

/-- … also on the sender's side. -/
theorem C21_false_cancel : ¬ LatestCancelWaker Nat := by
  intro h
  have := h [.sCall (.pollCanceled 1), .sStep, .sStep, .sStep, .sCall (.pollCanceled 2), .sStep,
    .rCall .close, .rStep, .rStep] _ 2 rfl (by decide +kernel) (by decide +kernel) (by decide +kernel)
    (by simp [SenderLeft]; decide +kernel)
  exact absurd this (by decide +kernel)

/-- What holds: the waker of the *first* pending poll is woken, exactly once, and
no other. Hence C21 for tasks that always poll with the same waker. -/
theorem C21_partial {acts : List (Act α)} {s : State α} (h : run (init α) acts = some s) (w : Waker)
    (hp : (pendings s.log).getLast? = some w) (hc : Event.closed ∉ s.log) (hg : s.spc = .gone) :
    rxWoken s.log = [w] ∧ rxDropped s.log = [] := by
  obtain ⟨g, a, b⟩ := reach h
  have hne : pendings s.log ≠ [] := by intro hh; simp [hh] at hp
  have inv : Inv s := by
    rcases g with i | d
    · exact i
    · have := a.frees
      rw [d.1] at this
      exact absurd (freed_past a.hist (by simp [this])).2 hc
  have hC : has s.st CLOSED = false := by
    cases hC : has s.st CLOSED with
    | false => rfl
    | true => exact absurd (a.closed.2 hC) hc
  have hd : rxDropped s.log = [] := by
    refine Classical.byContradiction fun hh => ?_
    rcases b.rxd hh with hh | hh
    · simp [hC] at hh
    · exact hne hh.1
  have hrx : rRx s.rpc = false := by
    have f := rFacts s.rpc
    cases hh : rRx s.rpc with
    | false => rfl
    | true =>
      rcases f.held hh with q | q
      · have := inv.rStore q
        rcases b.pend with e | e
        · exact absurd e hne
        · simp [this] at e
      · exact absurd (b.und q) hne
  have hr := inv.rxw
  rw [hrx, hg] at hr
  simp only [sDone, Oneshot.sWk] at hr
  have hn : s.rxw = none := by cases hh : s.rxw <;> simp_all
  have := b.rxc
  rw [hn, hd] at this
  rcases b.pend with e | ⟨-, e⟩
  · exact absurd e hne
  · rw [hp, this] at e
    simp at e
    exact ⟨e.symm, hd⟩

/-- With one waker throughout, the last pending poll is woken. -/
theorem C21_same_waker_partial {acts : List (Act α)} {s : State α} (h : run (init α) acts = some s) (w : Waker)
    (hsame : ∀ u ∈ pendings s.log, u = w) (hp : (pendings s.log).head? = some w)
    (hc : Event.closed ∉ s.log) (hg : s.spc = .gone) : w ∈ rxWoken s.log := by
  have hne : pendings s.log ≠ [] := by intro hh; simp [hh] at hp
  have hl : (pendings s.log).getLast? = some w := by
    rw [List.getLast?_eq_some_getLast hne]
    exact congrArg some (hsame _ (List.getLast_mem hne))
  simp [(C21_partial h w hl hc hg).1]

/-- The waker of the first pending `poll_canceled` is woken, exactly once, if the
sender is still there. -/
theorem C21_cancel_partial {acts : List (Act α)} {s : State α} (h : run (init α) acts = some s) (w : Waker)
    (hp : (cancelPendings s.log).getLast? = some w) (hc : Event.closed ∈ s.log) (hr : s.rpc.resting = true)
    (hl : ¬ SenderLeft s.log) : txWoken s.log = [w] ∧ txDropped s.log = [] := by
  obtain ⟨g, a, b⟩ := reach h
  have hne : cancelPendings s.log ≠ [] := by intro hh; simp [hh] at hp
  have inv : Inv s := by
    rcases g with i | d
    · exact i
    · have := a.frees
      rw [d.1] at this
      exact absurd (freed_past a.hist (by simp [this])).1 hl
  have hC := a.closed.1 hc
  have hdn : sDone s.spc = false := by
    cases hh : sDone s.spc with
    | false => rfl
    | true =>
      rcases (sFacts2 s.spc).don hh with q | q | q
      · exact absurd (.inl (a.sent q)) hl
      · exact absurd (.inr (a.drop2 q)) hl
      · rcases a.gone q with e | e
        · exact absurd (.inr e) hl
        · exact absurd (.inl e.1) hl
  have hd : txDropped s.log = [] := by
    refine Classical.byContradiction fun hh => ?_
    rcases b.txd hh with hh | hh
    · simp [hdn] at hh
    · exact hne hh.1
  have hTX : has s.st TX = true := by
    rcases b.cpend with e | e
    · exact absurd e hne
    · exact e.1
  have htx : sTx s.spc = false := by
    cases hh : sTx s.spc with
    | false => rfl
    | true =>
      rcases (sFacts s.spc).held hh with q | q
      · have := inv.sStore q
        simp [this] at hTX
      · exact absurd (b.tund q) hne
  have ht := inv.txw
  have hrt : rTx s.rpc = false := by cases hh : s.rpc <;> simp_all [RPc.resting, rTx]
  rw [htx, hrt, hC, hTX] at ht
  have hn : s.txw = none := by cases hh : s.txw <;> simp_all
  have := b.txc
  rw [hn, hd] at this
  rcases b.cpend with e | ⟨-, e⟩
  · exact absurd e hne
  · rw [hp, this] at e
    simp at e
    exact ⟨e.symm, hd⟩

example : (run (init Nat) demo).map (fun s => (pendings s.log, rxWoken s.log, s.spc)) =
    some ([1], [1], .gone) := by decide +kernel
example : (run (init Nat) [.sCall (.pollCanceled 5), .sStep, .sStep, .sStep, .rCall .close, .rStep, .rStep]).map
    (fun s => (cancelPendings s.log, txWoken s.log, s.rpc)) = some ([5], [5], .idle) := by decide +kernel

/-! ## C22 -/

/-- C22: no schedule runs into undefined behaviour. -/
def NeverUB (α : Type) : Prop := ∀ acts : List (Act α), (run (init α) acts).isSome = true

/-- C22 is false: `send` stores `HALF_DROPPED` and only then takes the receiver's
waker (48, 52). A receiver dropped in between releases the object. -/
theorem C22_false_send :
    ∃ acts : List (Act Nat), ∃ s, run (init Nat) acts = some s ∧ s.freed = true ∧ s.spc.leaving = true ∧
      step s .sStep = none :=
  ⟨[.rCall (.poll 1), .rStep, .rStep, .rStep, .sCall (.send 7), .sStep, .sStep,
    .rCall .drop, .rStep, .rStep, .rStep], _, rfl, by decide +kernel, by decide +kernel, by decide +kernel⟩

/-- … the same on the other side: the receiver's drop sets `HALF_DROPPED` and only
then takes the sender's waker (130, 137). -/
theorem C22_false_drop :
    ∃ acts : List (Act Nat), ∃ s, run (init Nat) acts = some s ∧ s.freed = true ∧ s.rpc.leaving = true ∧
      step s .rStep = none :=
  ⟨[.sCall (.pollCanceled 1), .sStep, .sStep, .sStep, .rCall .drop, .rStep,
    .sCall .drop, .sStep, .sStep], _, rfl, by decide +kernel, by decide +kernel, by decide +kernel⟩

theorem C22_false : ¬ NeverUB Nat := by
  intro h
  have := h [.rCall (.poll 1), .rStep, .rStep, .rStep, .sCall (.send 7), .sStep, .sStep,
    .rCall .drop, .rStep, .rStep, .rStep, .sStep]
  exact absurd this (by decide +kernel)

/-- C22 under the condition that no end releases the object while the other one is
still leaving: no undefined behaviour; the object is released exactly when both
ends are gone, once; then nothing is left in it and every stored waker was woken
or dropped exactly once. -/
theorem C22_partial {acts : List (Act α)} (ap : Always Apart (init α) acts) :
    ∃ s, run (init α) acts = some s ∧
      (s.freed = true ↔ s.spc = .gone ∧ s.rpc = .gone) ∧
      frees s.log = (if s.freed then 1 else 0) ∧
      (s.freed = true → s.data = none ∧ s.rxw = none ∧ s.txw = none ∧
        rxStored s.log = rxWoken s.log ++ rxDropped s.log ∧
        txStored s.log = txWoken s.log ++ txDropped s.log) := by
  obtain ⟨s, h, inv⟩ := run_inv (init_inv α) ap
  obtain ⟨-, a, b⟩ := reach h
  have hg : s.freed = true ↔ s.spc = .gone ∧ s.rpc = .gone := by
    rw [inv.freed]
    cases hs : s.spc <;> cases hr : s.rpc <;> simp [sGone, rGone]
  refine ⟨s, h, hg, a.frees, ?_⟩
  intro hf
  obtain ⟨h1, h2⟩ := hg.1 hf
  have hd := inv.data
  have hr := inv.rxw
  have ht := inv.txw
  have hc := inv.closed
  rw [h1, h2] at hd hr ht
  rw [h2] at hc
  simp only [sWritten, rDone, rRead, sFail, rRx, sDone, Oneshot.sWk, sTx, rTx] at hd hr ht hc
  have hc := hc trivial
  have hd' : s.data = none := by cases hh : s.data <;> simp_all
  have hr' : s.rxw = none := by cases hh : s.rxw <;> simp_all
  have ht' : s.txw = none := by cases hh : s.txw <;> simp_all
  refine ⟨hd', hr', ht', ?_, ?_⟩
  · have := b.rxc
    simpa [hr'] using this
  · have := b.txc
    simpa [ht'] using this

/-- Calls that do not overlap satisfy the condition. -/
theorem C22_sequential_partial {acts : List (Act α)} (h : Always Sequential (init α) acts) :
    Always Apart (init α) acts := by
  have key : ∀ t : State α, Sequential t → Apart t := by
    rintro t (ht | ht)
    · refine ⟨fun hf => ?_, fun _ => ?_⟩
      · cases hh : t.spc <;> simp_all [SPc.resting, SPc.freeing]
      · cases hh : t.spc <;> simp_all [SPc.resting, SPc.leaving]
    · refine ⟨fun _ => ?_, fun hf => ?_⟩
      · cases hh : t.rpc <;> simp_all [RPc.resting, RPc.leaving]
      · cases hh : t.rpc <;> simp_all [RPc.resting, RPc.freeing]
  suffices ∀ s : State α, Always Sequential s acts → Always Apart s acts from this _ h
  clear h
  intro s hs
  induction acts generalizing s with
  | nil => exact key _ hs
  | cons a as ih => exact ⟨key _ hs.1, fun s' h' => ih s' (hs.2 s' h')⟩

/-- The condition is necessary: a reachable state that violates it runs into
undefined behaviour in two steps. -/
theorem C22_exact {acts : List (Act α)} {s : State α} (h : run (init α) acts = some s) (hn : ¬ Apart s) :
    ∃ acts', acts'.length ≤ 2 ∧ run s acts' = none := by
  obtain ⟨g, -, -⟩ := reach h
  rcases g with inv | d
  · have hf := inv.freed
    have : (s.spc.freeing = true ∧ s.rpc.leaving = true) ∨ (s.rpc.freeing = true ∧ s.spc.leaving = true) := by
      refine Classical.byContradiction fun hh => hn ⟨fun q => ?_, fun q => ?_⟩
      · cases hq : s.rpc.leaving with
        | false => rfl
        | true => exact absurd (.inl ⟨q, hq⟩) hh
      · cases hq : s.spc.leaving with
        | false => rfl
        | true => exact absurd (.inr ⟨q, hq⟩) hh
    rcases this with ⟨h1, h2⟩ | ⟨h1, h2⟩
    · refine ⟨[.sStep, .rStep], by simp, ?_⟩
      obtain ⟨st, data, rxw, txw, freed, spc, rpc, log⟩ := s
      dsimp only at hf h1 h2
      cases spc <;> simp [SPc.freeing] at h1 <;> cases rpc <;> simp [RPc.leaving] at h2 <;>
        simp [sGone] at hf <;> subst hf <;>
        simp [run, step, sStep, rStep, SPc.resting, RPc.resting, State.release, State.emit]
    · refine ⟨[.rStep, .sStep], by simp, ?_⟩
      obtain ⟨st, data, rxw, txw, freed, spc, rpc, log⟩ := s
      dsimp only at hf h1 h2
      cases rpc <;> simp [RPc.freeing] at h1 <;> cases spc <;> simp [SPc.leaving] at h2 <;>
        simp [rGone] at hf <;> subst hf <;>
        simp [run, step, sStep, rStep, SPc.resting, RPc.resting, State.release, State.emit]
  · obtain ⟨d1, d2 | d2⟩ := d
    · refine ⟨[.rStep], by simp, ?_⟩
      obtain ⟨st, data, rxw, txw, freed, spc, rpc, log⟩ := s
      dsimp only at d1 d2
      subst d1
      cases rpc <;> simp [RPc.leaving] at d2 <;> simp [run, step, rStep, RPc.resting]
    · refine ⟨[.sStep], by simp, ?_⟩
      obtain ⟨st, data, rxw, txw, freed, spc, rpc, log⟩ := s
      dsimp only at d1 d2
      subst d1
      cases spc <;> simp [SPc.leaving] at d2 <;> simp [run, step, sStep, SPc.resting]

/-- Both wakers stored, then both ends dropped one after the other. -/
example : (run (init Nat) [.rCall (.poll 1), .rStep, .rStep, .rStep, .sCall (.pollCanceled 2), .sStep, .sStep, .sStep,
    .sCall .drop, .sStep, .sStep, .rCall .drop, .rStep, .rStep, .rStep]).map
    (fun s => (s.freed, frees s.log, rxWoken s.log, txDropped s.log)) = some (true, 1, [1], [2]) := by decide +kernel

/-! ## C23 -/

/-- `is_canceled` and `poll_canceled` answer according to whether the receiver has
closed the channel or was dropped. -/
theorem C23_cancellation {acts : List (Act α)} {s : State α} (h : run (init α) acts = some s)
    (hi : s.spc = .idle) :
    (∃ b, (run s [.sCall .isCanceled, .sStep]).map (·.log) = some (.isCanceled b :: s.log) ∧
      (b = true ↔ Event.closed ∈ s.log)) ∧
    ∀ w, (Event.closed ∈ s.log →
        (run s [.sCall (.pollCanceled w), .sStep]).map (·.log) = some (.cancelReady :: s.log)) ∧
      (Event.closed ∉ s.log →
        ∃ s', run s [.sCall (.pollCanceled w), .sStep, .sStep, .sStep] = some s' ∧
          .cancelPending w ∈ s'.log ∧ .cancelReady ∉ s'.log) := by
  obtain ⟨g, a, -⟩ := reach h
  have inv : Inv s := by
    rcases g with i | d
    · exact i
    · rcases d.2 with ⟨d, _⟩ | ⟨_, d⟩ <;> simp [hi, SPc.leaving, sGone] at d
  have hf := inv.freed
  have ht := inv.txw
  have hcl := a.closed
  have hno : Event.closed ∉ s.log → Event.cancelReady ∉ s.log := by
    intro hc hr
    have : ∀ l : List (Event α), Hist l → Event.cancelReady ∈ l → Event.closed ∈ l := by
      intro l
      induction l with
      | nil => simp
      | cons e l ih =>
        intro hl hr
        rcases List.mem_cons.1 hr with rfl | hr
        · exact List.mem_cons_of_mem _ hl.1
        · exact List.mem_cons_of_mem _ (ih hl.2 hr)
    exact hc (this _ a.hist hr)
  have hrt := inv.rtx
  obtain ⟨st, data, rxw, txw, freed, spc, rpc, log⟩ := s
  dsimp only at hf ht hcl hi hno hrt ⊢
  subst hi
  have hf' : freed = false := by simpa [sGone] using hf
  subst hf'
  refine ⟨⟨has st CLOSED, by simp [run, step, sCall, SPc.isIdle, sStep, SPc.resting, State.emit], hcl.symm⟩, ?_⟩
  intro w
  refine ⟨fun hc => by simp [run, step, sCall, SPc.isIdle, sStep, SPc.resting, State.emit, hcl.1 hc], fun hc => ?_⟩
  have hC : has st CLOSED = false := by
    cases hC : has st CLOSED with
    | false => rfl
    | true => exact absurd (hcl.2 hC) hc
  have hno := hno hc
  cases hT : has st TX with
  | true =>
    exact ⟨_, by simp [run, step, sCall, SPc.isIdle, sStep, SPc.resting, State.emit, hC, hT]; rfl, by simp, by simp [hno]⟩
  | false =>
    have htx : txw = none := by cases txw <;> simp_all [sTx]
    subst htx
    exact ⟨_, by simp [run, step, sCall, SPc.isIdle, sStep, SPc.resting, State.emit, hC, hT]; rfl, by simp, by simp [hno]⟩

/-- Over interleavings: every answer was right at the moment of its state access. -/
theorem C23_answers {acts : List (Act α)} {s : State α} (h : run (init α) acts = some s)
    {l₁ l₂ : List (Event α)} {e : Event α} (hl : s.log = l₁ ++ e :: l₂) :
    (e = .cancelReady → Event.closed ∈ l₂) ∧ (∀ w, e = .cancelPending w → Event.closed ∉ l₂) ∧
      (∀ b, e = .isCanceled b → (b = true ↔ Event.closed ∈ l₂)) := by
  have hh := (reach h).2.1.hist
  rw [hl] at hh
  have hok : Ok e l₂ := by
    clear hl
    induction l₁ with
    | nil => exact hh.1
    | cons a l ih => exact ih hh.2
  refine ⟨?_, ?_, ?_⟩
  · rintro rfl; exact hok
  · rintro w rfl; exact hok
  · rintro b rfl; exact hok

/-- A pending `poll_canceled` is followed by a wake: once the channel is closed and
the receiver's call has returned, the stored waker was woken, if the sender is
still there. -/
theorem C23_wake {acts : List (Act α)} {s : State α} (h : run (init α) acts = some s)
    (hp : cancelPendings s.log ≠ []) (hc : Event.closed ∈ s.log) (hr : s.rpc.resting = true)
    (hl : ¬ SenderLeft s.log) : (txWoken s.log).length = 1 := by
  have hw : (cancelPendings s.log).getLast? = some ((cancelPendings s.log).getLast hp) :=
    List.getLast?_eq_some_getLast hp
  simp [(C21_cancel_partial h _ hw hc hr hl).1]

example : (run (init Nat) [.sCall (.pollCanceled 5), .sStep, .sStep, .sStep, .rCall .drop, .rStep, .rStep]).map
    (fun s => (cancelPendings s.log, txWoken s.log, s.rpc, s.spc)) = some ([5], [5], .gone, .idle) := by decide +kernel

end Verif.Oneshot
