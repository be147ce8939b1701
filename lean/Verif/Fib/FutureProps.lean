import Verif.Fib.FutureLemmas
/-! # Properties of fiber futures (C50)

All theorems are about every fiber, and every schedule of the generator and of the future
at the granularity of single accesses to the channel between them. -/
namespace Verif.Fib.Future

open Verif.Spsc Verif.Oneshot

variable {α : Type}

private theorem reach {acts : List (Act α)} {s : State α} (h : run (init α) acts = some s) : Good s := run_good (init_good α) h

/-- Poll (pending), the fiber yields, then completes with 7; poll again. -/
def demo : List (Act Nat) :=
  [.call (.poll 1), .rstep, .rstep, .rstep, .wake, .step, .fib none, .wake, .step, .fib (some 7), .step, .step, .step,
    .call (.poll 1), .rstep, .rstep]

/-! ## What is received -/

/-- The fiber completes at most once, and is not resumed afterwards; polls return ready at
most once, and only with the value the fiber completed with. -/
theorem C50_value {acts : List (Act α)} {s : State α} (h : run (init α) acts = some s) :
    (completions s.outs).length ≤ 1 ∧
    (∀ v, v ∈ completions s.outs → s.outs.head? = some (some v)) ∧
    s.ready.length ≤ (completions s.outs).length ∧
    (∀ v, v ∈ s.ready → completions s.outs = [v]) := by
  have g := reach h
  obtain ⟨acts', hc⟩ := g.chan
  obtain ⟨h1, h2, h3, -, -⟩ := C19_delivery hc
  rw [g.link.vals]
  have hone : ∀ v, v ∈ sends s.ch.log → sends s.ch.log = [v] := by
    intro v hv
    cases hs : sends s.ch.log with
    | nil => simp [hs] at hv
    | cons a as =>
      rw [hs] at h1 hv
      have : as = [] := by simp at h1; exact h1
      subst this
      simp at hv; simp [hv]
  refine ⟨h1, ?_, by unfold State.ready; omega, fun v hv => hone v (h3 v (.inl hv))⟩
  intro v hv
  obtain ⟨u, os, hu⟩ := g.link.last (List.ne_nil_of_mem hv)
  have : completions s.outs = [v] := by rw [g.link.vals]; exact hone v hv
  rw [hu, completions] at this
  rw [hu]
  simp at this
  simp [this.1]

example : (run (init Nat) demo).map (fun s => (s.ready, s.outs)) = some ([7], [some 7, none]) := by decide +kernel

/-- Once the fiber has completed and the generator has finished, and the future was not
closed and has not returned the value yet, the next poll returns the fiber's value. -/
theorem C50_resolves {acts : List (Act α)} {s : State α} (h : run (init α) acts = some s) (hd : s.pc = .done)
    (hc : ¬ s.closed) (hr : s.ready = []) (hi : s.ch.rpc = .idle) :
    ∃ v, completions s.outs = [v] ∧ s.outs.head? = some (some v) ∧
      ∀ w, ∃ s', run s [.call (.poll w), .rstep, .rstep] = some s' ∧ s'.ready = [v] := by
  have g := reach h
  obtain ⟨acts', hch⟩ := g.chan
  have la := (reachA g.chan).1
  have hg := g.link.done hd
  have hne : sends s.ch.log ≠ [] := fun hh => hc (g.link.closed (.inr ⟨hd, hh⟩))
  have hok : Event.sendOk ∈ s.ch.log := by
    rcases la.gone (by rw [hg]; rfl) with hh | ⟨-, hh | hh⟩
    · exact absurd (la.drop1 hh).1 hne
    · exact hh
    · exact absurd (la.ret hh).2.1 hc
  obtain ⟨v, hv⟩ : ∃ v, sends s.ch.log = [v] := by
    have h1 := la.one
    cases hs : sends s.ch.log with
    | nil => exact absurd hs hne
    | cons a as =>
      rw [hs] at h1
      have : as = [] := by simp at h1; exact h1
      exact ⟨a, by rw [this]⟩
  have hcomp : completions s.outs = [v] := by rw [g.link.vals, hv]
  refine ⟨v, hcomp, (C50_value h).2.1 v (by simp [hcomp]), fun w => ?_⟩
  have key := ((C20_receive hch hi (by rw [hg]; rfl)).1 v hok hr hv).2 w
  have hp := g.polls
  simp only [Oneshot.run, Oneshot.step, hi, Oneshot.RPc.isIdle, if_true] at key
  simp only [run, step, hi, Oneshot.RPc.isIdle, if_true, Op.toROp]
  split at key
  · simp at key
  · rename_i c1 h1
    split at key
    · simp at key
    · rename_i c2 h2
      simp at key
      have hp2 : pollCanceled c2.log = false := by rw [key]; simpa [pollCanceled] using hp
      have hp1 : pollCanceled c1.log = false := by
        cases hb : pollCanceled c1.log with
        | false => rfl
        | true => rw [(rStep_frame h2).2.2.2.2 hb] at hp2; simp at hp2
      refine ⟨{ s with ch := c2 }, by simp [h1, hp1, h2, hp2], ?_⟩
      have hr : received s.ch.log = [] := hr
      simp only [State.ready, key, received, hr]

/-- `demo` before the last poll. -/
def demo' : List (Act Nat) :=
  [.call (.poll 1), .rstep, .rstep, .rstep, .wake, .step, .fib none, .wake, .step, .fib (some 7), .step, .step, .step]

example : (run (init Nat) demo').map (fun s => (decide (s.pc = .done), decide (Event.closed ∈ s.ch.log), s.ready, decide (s.ch.rpc = .idle))) =
    some (true, false, [], true) := by decide +kernel

/-- After the fiber has completed, the generator finishes within five accesses to the channel,
whatever the future does in between. -/
theorem C50_finishes {acts acts' : List (Act α)} {s s' : State α} (h : run (init α) acts = some s)
    (hp : s.pc = .send ∨ s.pc = .leave) (h' : run s acts' = some s') (hn : 5 ≤ acts'.countP (fun a => match a with | .step => true | _ => false)) :
    s'.pc = .done := by
  have main : ∀ (as : List (Act α)) (s : State α), Good s → (s.pc = .send ∨ s.pc = .leave) ∨ s.pc = .done → run s as = some s' →
      (s.pc ≠ .done → rank s.ch.spc ≤ as.countP (fun a => match a with | .step => true | _ => false)) → s'.pc = .done := by
    intro as
    induction as with
    | nil =>
      intro s g hp hr hk
      simp [run] at hr; subst hr
      rcases hp with hp | hp
      · have h0 := hk (by rcases hp with hp | hp <;> simp [hp])
        simp at h0
        rcases hp with hp | hp
        · have := g.link.send hp
          cases hs : s.ch.spc <;> simp [hs, sSend] at this <;> simp [hs, rank] at h0
        · have := g.link.leave hp
          cases hs : s.ch.spc <;> simp [hs, dropping] at this <;> simp [hs, rank] at h0
      · exact hp
    | cons a as ih =>
      intro s g hp hr hk
      simp only [run] at hr
      split at hr
      · simp at hr
      · rename_i s1 h1
        have g1 := step_good' g h1
        refine ih s1 g1 ?_ hr ?_
        all_goals
          cases a with
          | step =>
            rcases hp with (hp | hp) | hp
            · simp only [step, hp] at h1
              split at h1
              · simp at h1
              · rename_i ch hc
                obtain ⟨-, hrk⟩ := send_step hc (g.link.send hp)
                have := hk (by simp [hp])
                simp only [List.countP_cons, if_true] at this
                simp [proceed, hp] at h1
                split at h1 <;> subst h1 <;> simp [hp]
                try omega
            · simp only [step, hp] at h1
              split at h1
              · simp at h1
              · rename_i ch hc
                obtain ⟨-, hrk⟩ := drop_step hc (g.link.leave hp)
                have := hk (by simp [hp])
                simp only [List.countP_cons, if_true] at this
                simp [proceed, hp] at h1
                split at h1 <;> subst h1 <;> simp [hp]
                try omega
            · simp [step, hp] at h1; subst h1; simp [hp]
          | wake =>
            have e : s1 = s := by rcases hp with (hp | hp) | hp <;> simp [step, hp] at h1 <;> exact h1.symm
            subst e
            first | exact hp | (simpa [List.countP_cons] using hk)
          | fib out =>
            have e : s1 = s := by rcases hp with (hp | hp) | hp <;> simp [step, hp] at h1 <;> exact h1.symm
            subst e
            first | exact hp | (simpa [List.countP_cons] using hk)
          | call op =>
            have e : s1.pc = s.pc ∧ s1.ch.spc = s.ch.spc := by
              simp only [step] at h1
              split at h1 <;> simp at h1 <;> subst h1
              · cases op <;> simp [Op.toROp, rCall]
              · simp
            rw [e.1]
            first | exact hp | (rw [e.2]; simpa [List.countP_cons] using hk)
          | rstep =>
            have e : s1.pc = s.pc ∧ s1.ch.spc = s.ch.spc := by
              simp only [step] at h1
              split at h1
              · simp at h1
              · rename_i ch hc
                split at h1 <;> simp at h1
                subst h1
                exact ⟨rfl, (rStep_frame hc).1⟩
            rw [e.1]
            first | exact hp | (rw [e.2]; simpa [List.countP_cons] using hk)
  refine main acts' s (reach h) (.inl hp) h' (fun _ => Nat.le_trans ?_ hn)
  cases s.ch.spc <;> simp [rank]

example : (run (init Nat) [.wake, .step, .fib (some 7)]).map (·.pc) = some .send := by decide +kernel

/-- A future that was pending when its fiber completed is woken: the waker of its first
pending poll, exactly once. -/
theorem C50_wakes {acts : List (Act α)} {s : State α} (h : run (init α) acts = some s) (hd : s.pc = .done)
    (hc : ¬ s.closed) (w : Waker) (hw : (pendings s.ch.log).getLast? = some w) : rxWoken s.ch.log = [w] := by
  have g := reach h
  obtain ⟨acts', hch⟩ := g.chan
  exact (C21_partial hch w hw hc (g.link.done hd)).1

example : (run (init Nat) demo').map (fun s => (pendings s.ch.log, rxWoken s.ch.log)) = some ([1], [1]) := by decide +kernel

/-- After `close` (or drop) between two runs of the thread, the fiber is never resumed
again. -/
theorem C50_close {acts acts' : List (Act α)} {s s' : State α} (h : run (init α) acts = some s) (hc : s.closed)
    (hp : s.pc = .yielded) (h' : run s acts' = some s') : s'.outs = s.outs ∧ s'.pc ≠ .resume := by
  have main : ∀ (as : List (Act α)) (s : State α), Good s → s.closed → s.pc ≠ .resume → run s as = some s' →
      s'.outs = s.outs ∧ s'.pc ≠ .resume := by
    intro as
    induction as with
    | nil => intro s _ _ hp hr; simp [run] at hr; subst hr; exact ⟨rfl, hp⟩
    | cons a as ih =>
      intro s g hc hp hr
      simp only [run] at hr
      split at hr
      · simp at hr
      · rename_i s1 h1
        have key : s1.closed ∧ s1.pc ≠ .resume ∧ s1.outs = s.outs := by
          unfold State.closed at *
          cases a with
          | wake =>
            simp only [step] at h1
            split at h1 <;> simp at h1 <;> subst h1
            · exact ⟨by simpa [sCall] using hc, by simp, rfl⟩
            · exact ⟨hc, hp, rfl⟩
          | fib out =>
            simp only [step] at h1
            simp at h1; subst h1; exact ⟨hc, hp, rfl⟩
          | call op =>
            simp only [step] at h1
            split at h1 <;> simp at h1 <;> subst h1
            · refine ⟨?_, hp, rfl⟩
              cases op <;> simpa [Op.toROp, rCall] using hc
            · exact ⟨hc, hp, rfl⟩
          | rstep =>
            simp only [step] at h1
            split at h1
            · simp at h1
            · rename_i ch hs
              split at h1 <;> simp at h1
              subst h1
              exact ⟨(rStep_frame hs).2.2.1 hc, hp, rfl⟩
          | step =>
            have hb := (reachA g.chan).1.closed.1 hc
            simp only [step] at h1
            split at h1
            case h_4 => simp at h1; subst h1; exact ⟨hc, hp, rfl⟩
            case h_5 => simp at h1; subst h1; exact ⟨hc, hp, rfl⟩
            case h_6 => simp at h1; subst h1; exact ⟨hc, hp, rfl⟩
            · rename_i hpc
              split at h1
              · simp at h1
              · rename_i ch hs
                obtain ⟨c1, c2⟩ := check_step hs (g.link.check hpc)
                have hcl := (sStep_frame hs).2.2.1.2 hc
                simp [proceed, hpc, c1, SPc.isIdle, c2, lastCanceled, hb] at h1
                subst h1
                exact ⟨by simpa [sCall] using hcl, by simp, rfl⟩
            · rename_i hpc
              split at h1
              · simp at h1
              · rename_i ch hs
                have hcl := (sStep_frame hs).2.2.1.2 hc
                simp [proceed, hpc] at h1
                split at h1 <;> subst h1 <;> exact ⟨hcl, by simp, rfl⟩
            · rename_i hpc
              split at h1
              · simp at h1
              · rename_i ch hs
                have hcl := (sStep_frame hs).2.2.1.2 hc
                simp [proceed, hpc] at h1
                split at h1 <;> subst h1 <;> exact ⟨hcl, by simp, rfl⟩
        obtain ⟨r1, r2⟩ := ih s1 (step_good' g h1) key.1 key.2.1 hr
        exact ⟨by rw [r1, key.2.2], r2⟩
  exact main acts' s (reach h) hc (by simp [hp]) h'

example : (run (init Nat) [.wake, .step, .fib none, .call .close, .rstep]).map (fun s => (decide (Event.closed ∈ s.ch.log), s.pc)) =
    some (true, .yielded) := by decide +kernel

/-! ## Polls are defined -/

/-- FALSE as stated: `close` is a safe method of `FiberFuture`, and so is `poll`; a poll
after `close` runs into `unreachable`. -/
theorem C50_false : ¬ Defined Nat := by
  intro h
  exact absurd (h [.call .close, .rstep, .call (.poll 1), .rstep]) (by decide +kernel)

/-- … and so does a poll after the value was returned. -/
theorem C50_false_repoll :
    ∃ s, run (init Nat) [.wake, .step, .fib (some 7), .step, .step, .call (.poll 1), .rstep, .rstep] = some s ∧
      s.ready = [7] ∧ ¬ s.closed ∧ run s [.call (.poll 1), .rstep] = none :=
  ⟨_, rfl, by decide +kernel, by unfold State.closed; decide +kernel, by decide +kernel⟩

/-- … and, without either, a future dropped while the generator is inside `send`. -/
theorem C50_false_race :
    (run (init Nat) [.call (.poll 1), .rstep, .rstep, .rstep, .wake, .step, .fib (some 7), .step, .step,
      .call (.poll 1), .rstep, .rstep, .call .drop, .rstep, .rstep]).isSome = true ∧
    run (init Nat) [.call (.poll 1), .rstep, .rstep, .rstep, .wake, .step, .fib (some 7), .step, .step,
      .call (.poll 1), .rstep, .rstep, .call .drop, .rstep, .rstep, .step] = none := by decide +kernel

private theorem careful_step {s : State α} {a : Act α} (g : Good s) (inv : Oneshot.Inv s.ch) (q : Quiet s.ch) (c : Careful s a) :
    ∃ s', step s a = some s' ∧ Oneshot.Inv s'.ch ∧ Quiet s'.ch := by
  have la := (reachA g.chan).1
  cases a with
  | wake =>
    simp only [step]
    split
    · rename_i hp
      refine ⟨_, rfl, sCall_inv inv (by simp [g.link.idle (.inl hp), SPc.isIdle]) _, ?_⟩
      exact ⟨q.pcs, q.fresh, q.open_⟩
    · exact ⟨_, rfl, inv, q⟩
  | fib out =>
    simp only [step]
    split
    · rename_i hp
      split
      · exact ⟨_, rfl, inv, q⟩
      · refine ⟨_, rfl, sCall_inv inv (by simp [g.link.idle (.inr hp), SPc.isIdle]) _, ?_⟩
        exact ⟨q.pcs, by simpa [sCall, Oneshot.State.emit, received] using q.fresh,
          by simpa [sCall, Oneshot.State.emit] using q.open_⟩
    · exact ⟨_, rfl, inv, q⟩
  | call op =>
    simp only [step]
    split
    · rename_i hi
      refine ⟨_, rfl, rCall_inv inv hi _, ?_⟩
      have hidle : s.ch.rpc = .idle := by cases hr : s.ch.rpc <;> simp [hr, RPc.isIdle] at hi; rfl
      have ho := q.open_ (by simp [hidle, rDone])
      cases op with
      | close => exact absurd rfl c.noClose
      | poll w =>
        have := c.noRepoll w rfl
        constructor <;> simp_all [Op.toROp, rCall, polling, rDone, State.ready]
      | drop => constructor <;> simp_all [Op.toROp, rCall, polling, rDone, dropOnly]
    · exact ⟨_, rfl, inv, q⟩
  | rstep =>
    obtain ⟨ch, h1, h2⟩ := Oneshot.rStep_inv inv c.apart.receiver
    have hd : sDone s.ch.spc = true → Event.closed ∉ s.ch.log → sends s.ch.log ≠ [] := by
      intro hs hc hn
      obtain ⟨l1, l2, l3, l4, l5, l6, l7, l8, l9⟩ := g.link
      cases hp : s.pc with
      | yielded => simp [l2 (.inl hp), sDone] at hs
      | resume => simp [l2 (.inr hp), sDone] at hs
      | check => simp [l3 hp, sDone] at hs
      | send => exact la.sent (l5 hp) hn
      | leave => exact hc (l8 (.inl hp))
      | done => exact hc (l8 (.inr ⟨hp, hn⟩))
    obtain ⟨p1, p2⟩ := rStep_quiet q inv la hd g.polls h1
    refine ⟨{ s with ch := ch }, ?_, h2, p2⟩
    simp [step, h1, p1]
  | step =>
    simp only [step]
    obtain ⟨ch, h1, h2⟩ := Oneshot.sStep_inv inv c.apart.sender
    obtain ⟨f1, f2, f3, -, -⟩ := sStep_frame h1
    have q' : Quiet ch := ⟨by rw [f1]; exact q.pcs, by rw [f1, f2]; exact q.fresh, by rw [f1, f3]; exact q.open_⟩
    split <;> first | exact ⟨_, rfl, inv, q⟩ | skip
    all_goals
      simp only [h1]
      refine ⟨_, rfl, ?_⟩
      simp only [proceed]
      repeat' split
      all_goals first
        | exact ⟨h2, q'⟩
        | exact ⟨sCall_inv h2 (by assumption) _, ⟨q'.pcs, q'.fresh, q'.open_⟩⟩

/-- C50, defined polls, for careful use: if `close` is not called, no poll follows the
result, and no end releases the channel while the other one is still leaving it, then
there is no undefined behaviour. -/
theorem C50_defined_partial {acts : List (Act α)} (hc : Always Careful (init α) acts) : (run (init α) acts).isSome = true := by
  have main : ∀ (as : List (Act α)) (s : State α), Good s → Oneshot.Inv s.ch → Quiet s.ch → Always Careful s as → (run s as).isSome = true := by
    intro as
    induction as with
    | nil => intros; rfl
    | cons a as ih =>
      intro s g inv q hc
      obtain ⟨s1, h1, i1, q1⟩ := careful_step g inv q hc.1
      simp only [run, h1]
      exact ih s1 (step_good' g h1) i1 q1 (hc.2 s1 h1)
  refine main acts _ (init_good α) (init_inv α) ?_ hc
  constructor <;> simp [init, Oneshot.init, polling]

/-- The condition, evaluated. -/
def carefulB (s : State Nat) (a : Act Nat) : Bool :=
  decide (a ≠ .call .close) && (match a with | .call (.poll _) => s.ready.isEmpty | _ => true) &&
    !(s.ch.spc.freeing && s.ch.rpc.leaving) && !(s.ch.rpc.freeing && s.ch.spc.leaving)

/-- The condition along a schedule, evaluated. -/
def alwaysB (s : State Nat) : List (Act Nat) → Bool
  | [] => true
  | a :: as => carefulB s a && (match step s a with | none => true | some s' => alwaysB s' as)

theorem alwaysB_sound : ∀ (as : List (Act Nat)) (s : State Nat), alwaysB s as = true → Always Careful s as
  | [], _, _ => trivial
  | a :: as, s, h => by
    simp only [alwaysB, Bool.and_eq_true] at h
    obtain ⟨h1, h2⟩ := h
    simp only [carefulB, Bool.and_eq_true, decide_eq_true_eq, Bool.not_eq_true', Bool.and_eq_false_iff] at h1
    obtain ⟨⟨⟨c1, c2⟩, c3⟩, c4⟩ := h1
    refine ⟨⟨c1, ?_, ⟨?_, ?_⟩⟩, ?_⟩
    · intro w hw; subst hw; simpa using c2
    · intro hh; simpa [hh] using c3
    · intro hh; simpa [hh] using c4
    · intro s' hs; rw [hs] at h2; exact alwaysB_sound as s' h2

/-- `demo`, and the future is dropped. -/
example : Always Careful (init Nat) (demo ++ [.call .drop, .rstep, .rstep]) := alwaysB_sound _ _ (by decide +kernel)

end Verif.Fib.Future
