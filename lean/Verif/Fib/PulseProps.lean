import Verif.Fib.PulseRun
/-! # Properties of fiber streams over the pulse channel (C51)

For every behaviour of the fiber, every overflow handler, every width of the counter and
every interleaving of the generator and the stream at the level of accesses to the shared
object. -/
namespace Verif.Fib.PulseStream

open Verif.Spsc Verif.Pulse

variable {n : Nat} {ε : Type} {ov : Policy n ε}

/-! ## Schedules for the examples -/

/-- A resume of the generator in which the fiber returns `o`, run until it is suspended
again or completed. -/
def turn (o : Out n ε) : List (Act n ε) := [.wake, .step, .step, .fib o] ++ List.replicate 8 .step

/-- A whole `poll_next` of the stream. -/
def poll : List (Act n ε) := .call (.pollNext 1) :: List.replicate 4 .rstep

/-- Five pulses, and then as many as the counter can hold. -/
def tooMany : List (Act 26 Nat) := turn (.yielded (some 5)) ++ turn (.yielded (some 134217727))

/-- A handler that fails. -/
def strict : Policy 26 Nat := fun outs => some outs.length

/-! ## What is sent -/

/-- Every number of pulses the fiber returns is passed to the channel in one call of
`send`, in order; all calls have returned unless one is running; the fiber is not resumed
after it completed. -/
theorem C51_pulse_calls {acts : List (Act n ε)} {s : State n ε} (h : run ov (init n ε) acts = some s) :
    (∃ x : Option Nat, x.toList ++ (sends s.ch.log).map (·.1) = offered s.outs) ∧
    (s.pc ≠ .send → s.pc ≠ .sendLast → (sends s.ch.log).map (·.1) = offered s.outs) ∧
    ∀ o ∈ s.outs.tail, o.isComplete = false := by
  obtain ⟨l, -⟩ := reach h
  refine ⟨⟨_, l.vals⟩, fun h1 h2 => ?_, l.past⟩
  have := l.vals
  rw [Link.notSending l h1 h2] at this
  exact this

example : (run saturating (init 26 Nat) (tooMany ++ turn (.complete (.ok (some 7))))).map (fun s => (sends s.ch.log, s.pc)) =
    some ([(7, .ok), (134217727, .full), (5, .ok)], .done) := by decide +kernel

/-- A number of pulses is refused exactly when it does not fit: the counter is left as it
is, whatever the policy. -/
theorem C51_pulse_fits {acts : List (Act n ε)} {s : State n ε} (h : run ov (init n ε) acts = some s) :
    (∀ l₁ l₂ p r, s.ch.log = l₁ ++ .send p r :: l₂ → (r = .full ↔ maxPulses n < pend n true l₂ + p)) ∧
    (∀ l₁ l₂ p, s.ch.log = l₁ ++ .send p .ok :: l₂ → Event.closed ∉ l₂) ∧
    (∀ l₁ l₂ p, s.ch.log = l₁ ++ .send p .canceled :: l₂ → Event.closed ∈ l₂) ∧
    cnt s.ch.st = pend n true s.ch.log ∧ ∀ p r, Event.sat p r ∉ s.ch.log := by
  obtain ⟨l, as, hr⟩ := reach h
  have hh := (chan_reach hr).1
  refine ⟨fun l₁ l₂ p r e => C26_history hr e, fun l₁ l₂ p e => ?_, fun l₁ l₂ p e => ?_, (C24_receive hr).1, fun p r q => l.sat.2 ⟨p, r, q⟩⟩
  · rw [e] at hh; exact (hist_at hh).1
  · rw [e] at hh; exact (hist_at hh).1

private theorem accepted_eq {l : List (Event ε)} (h : ¬∃ p r, Event.sat p r ∈ l) : accepted n l = acceptedSum (sends l) := by
  induction l with
  | nil => rfl
  | cons e l ih =>
    have ih := ih fun ⟨p, r, q⟩ => h ⟨p, r, List.mem_cons_of_mem _ q⟩
    cases e with
    | send p r => cases r <;> simp [accepted, sends, acceptedSum, ih]
    | sat p r => exact absurd ⟨p, r, List.mem_cons_self ..⟩ h
    | _ => exact ih

/-- The pulses received and pending are the accepted ones, while the stream is open. -/
theorem C51_pulse_accepted {acts : List (Act n ε)} {s : State n ε} (h : run ov (init n ε) acts = some s) (hc : ¬s.closed) :
    recvTotal s.ch.log + cnt s.ch.st = acceptedSum (sends s.ch.log) := by
  obtain ⟨l, as, hr⟩ := reach h
  rw [C24_open_partial hr hc, accepted_eq l.sat.2]

example : (run saturating (init 26 Nat) (turn (.yielded (some 3)) ++ poll ++ tooMany)).map
    (fun s => (recvTotal s.ch.log, cnt s.ch.st, s.ch.log.contains .closed)) = some (3, 5, false) := by decide +kernel

/-! ## Saturation -/

/-- A saturating stream saturates: with nothing received so far, the counter shows all
pulses the fiber returned, or its maximum if there are more. -/
def Saturates (n : Nat) (ε : Type) : Prop :=
  ∀ (acts : List (Act n ε)) (s : State n ε), run saturating (init n ε) acts = some s → s.pc = .yielded → ¬s.closed →
    recvTotal s.ch.log = 0 → cnt s.ch.st = min (offered s.outs).sum (maxPulses n)

/-- It does not: `add_rx` uses `send`, so pulses that do not fit are dropped altogether. Of
5 + 134217727 pulses (maximum 134217727) the stream reports 5. -/
theorem C51_false : ¬ Saturates 26 Nat := by
  intro h
  have := h tooMany _ rfl (by decide +kernel) (by unfold State.closed; decide +kernel) (by decide +kernel)
  exact absurd this (by decide +kernel)

/-- … and of a single yield of more than the maximum, nothing. -/
theorem C51_false_single : ∃ s, run saturating (init 26 Nat) (turn (.yielded (some 134217728))) = some s ∧ s.pc = .yielded ∧
    offered s.outs = [134217728] ∧ cnt s.ch.st = 0 :=
  ⟨_, rfl, by decide +kernel, by decide +kernel, by decide +kernel⟩

private theorem pend_le {l : List (Event ε)} (h : ¬∃ p r, Event.sat p r ∈ l) : pend n true l ≤ ((sends l).map (·.1)).sum := by
  induction l with
  | nil => simp [pend]
  | cons e l ih =>
    have ih := ih fun ⟨p, r, q⟩ => h ⟨p, r, List.mem_cons_of_mem _ q⟩
    cases e with
    | send p r => cases r <;> simp [pend, sends] <;> omega
    | sat p r => exact absurd ⟨p, r, List.mem_cons_self ..⟩ h
    | recv k => simp only [pend, sends]; omega
    | _ => exact ih

private theorem all_accepted {l : List (Event ε)} (h : ¬∃ p r, Event.sat p r ∈ l) (hc : Event.closed ∉ l) (hh : Hist (OkCount n) l)
    (hm : ((sends l).map (·.1)).sum ≤ maxPulses n) : acceptedSum (sends l) = ((sends l).map (·.1)).sum := by
  induction l with
  | nil => rfl
  | cons e l ih =>
    have h' : ¬∃ p r, Event.sat p r ∈ l := fun ⟨p, r, q⟩ => h ⟨p, r, List.mem_cons_of_mem _ q⟩
    have hc' : Event.closed ∉ l := fun q => hc (List.mem_cons_of_mem _ q)
    have ih := ih h' hc' hh.2
    have h0 := hh.1
    have hp := pend_le (n := n) h'
    cases e with
    | send p r =>
      simp only [sends, List.map_cons, List.sum_cons] at hm ⊢
      have ih := ih (by omega)
      cases r with
      | ok => simp only [acceptedSum]; omega
      | full => simp only [OkCount] at h0; omega
      | canceled => exact absurd h0.1 hc'
    | sat p r => exact absurd ⟨p, r, List.mem_cons_self ..⟩ h
    | _ => exact ih hm

/-- What holds of saturation: as long as the fiber has not returned more pulses than the
counter can hold, none are lost, however they are received. (Missing: more pulses than
that, for which it is false.) -/
theorem C51_pulse_saturating_partial {acts : List (Act n ε)} {s : State n ε} (h : run ov (init n ε) acts = some s)
    (h1 : s.pc ≠ .send) (h2 : s.pc ≠ .sendLast) (hc : ¬s.closed) (hm : (offered s.outs).sum ≤ maxPulses n) :
    recvTotal s.ch.log + cnt s.ch.st = (offered s.outs).sum := by
  obtain ⟨l, as, hr⟩ := reach h
  have e := (C51_pulse_calls h).2.1 h1 h2
  rw [C51_pulse_accepted h hc, ← e]
  rw [← e] at hm
  exact all_accepted l.sat.2 hc (chan_reach hr).1 hm

example : (run saturating (init 26 Nat) (turn (.yielded (some 3)) ++ poll ++ turn (.yielded (some 4)) ++ turn (.complete (.ok (some 5))))).map
    (fun s => (s.pc, (offered s.outs).sum, recvTotal s.ch.log, cnt s.ch.st)) = some (.done, 12, 3, 9) := by decide +kernel

/-! ## The end -/

/-- How the generator ends: if the stream was not closed, with the error of the fiber, with
the error of `overflow` for the pulses that did not fit, or without an error after the fiber
completed. -/
theorem C51_pulse_end {acts : List (Act n ε)} {s : State n ε} (h : run ov (init n ε) acts = some s) (hd : s.pc = .done)
    (hc : ¬s.closed) : finish ov s.outs (sends s.ch.log) = some (errs s.ch.log).head? ∧ (errs s.ch.log).length ≤ 1 := by
  obtain ⟨l, -⟩ := reach h
  rcases (l.done hd).2 with ⟨q1, q2⟩ | ⟨e, q1, q2⟩
  · rcases q2 with q2 | q2
    · exact absurd q2 hc
    · simp [q1, q2]
  · simp [q1, q2]

/-- The error of a stream is its last item: whatever the receiver is handed as an error is
the reason the generator ended with, nothing was pending then, and nothing is sent or
received afterwards. -/
theorem C51_pulse_last {acts : List (Act n ε)} {s : State n ε} (h : run ov (init n ε) acts = some s) {l₁ l₂ : List (Event ε)} {e : ε}
    (hl : s.ch.log = l₁ ++ .recvErr e :: l₂) :
    finish ov s.outs (sends s.ch.log) = some (some e) ∧ pend n true l₂ = 0 ∧ (∀ k, Event.recv k ∉ l₁) ∧ (∀ p r, Event.send p r ∉ l₁) ∧
    recvErrs l₁ = [] := by
  obtain ⟨l, as, hr⟩ := reach h
  obtain ⟨a1, a2, a3, -, a5⟩ := C28_error hr
  obtain ⟨b1, b2, b3, b4⟩ := a5 _ _ _ hl
  have hm : ∀ p : List (Event ε), recvErrs (p ++ .recvErr e :: l₂) = recvErrs p ++ e :: recvErrs l₂ := by
    intro p
    induction p with
    | nil => rfl
    | cons x p ih => cases x <;> simp [recvErrs, ih]
  have hr' := hm l₁
  rw [← hl] at hr'
  rw [hr'] at a2 a3
  simp only [List.length_append, List.length_cons] at a2
  have hin := a3 e (.inl (by simp))
  refine ⟨?_, b2, b3, fun p r => (b4 p r).1, ?_⟩
  · cases he : errs s.ch.log with
    | nil => simp [he] at hin
    | cons x xs =>
      obtain ⟨q1, q2⟩ := Link.errs_eq l he
      subst q2
      rw [he] at hin
      simp at hin; subst hin; exact q1
  · cases hh : recvErrs l₁ with
    | nil => rfl
    | cons x xs => simp [hh] at a2; omega

example : (run strict (init 26 Nat) (tooMany ++ poll ++ poll ++ poll)).map
    (fun s => (s.pc, errs s.ch.log, recvTotal s.ch.log, recvErrs s.ch.log)) = some (.done, [2], 5, [2]) := by decide +kernel

/-- A saturating stream ends only when its fiber completes (or the stream is closed), and
its only error is the one the fiber completed with. -/
theorem C51_pulse_saturating_end {acts : List (Act n ε)} {s : State n ε} (h : run saturating (init n ε) acts = some s) :
    (s.pc = .done → ¬s.closed → ∃ r os, s.outs = .complete r :: os) ∧
    (∀ e, e ∈ errs s.ch.log → ∃ os, s.outs = .complete (.error e) :: os) := by
  obtain ⟨l, -⟩ := reach h
  have key : ∀ {o}, finish saturating s.outs (sends s.ch.log) = some o → (∃ r os, s.outs = .complete r :: os) ∧
      ∀ e, o = some e → ∃ os, s.outs = .complete (.error e) :: os := by
    intro o hf
    cases ho : s.outs with
    | nil => simp [ho, finish] at hf
    | cons x xs =>
      rw [ho] at hf
      rcases x with (_ | v) | (e | (_ | v))
      · simp [finish] at hf
      · cases hc : sends s.ch.log with
        | nil => simp [hc, finish] at hf
        | cons c cs => obtain ⟨u, f⟩ := c; cases f <;> simp [hc, finish, saturating] at hf
      · simp [finish] at hf; subst hf; simp
      · simp [finish] at hf; subst hf; simp
      · cases hc : sends s.ch.log with
        | nil => simp [hc, finish] at hf
        | cons c cs => obtain ⟨u, f⟩ := c; cases f <;> simp [hc, finish, saturating] at hf <;> subst hf <;> simp
  constructor
  · intro hd hc
    exact (key (C51_pulse_end h hd hc).1).1
  · intro e he
    cases hh : errs s.ch.log with
    | nil => simp [hh] at he
    | cons x xs =>
      obtain ⟨q1, q2⟩ := Link.errs_eq l hh
      subst q2
      rw [hh] at he; simp at he; subst he
      exact (key q1).2 e rfl

example : (run saturating (init 26 Nat) (tooMany ++ turn (.complete (.error 9)) ++ poll ++ poll)).map
    (fun s => (s.pc, recvTotal s.ch.log, recvErrs s.ch.log)) = some (.done, 5, [9]) := by decide +kernel

/-- A stream closed or dropped while the generator is suspended: the fiber is never resumed
again and nothing is sent, whatever happens. -/
theorem C51_pulse_close {acts acts' : List (Act n ε)} {s s' : State n ε} (h : run ov (init n ε) acts = some s) (hp : s.pc = .yielded)
    (hc : s.closed) (h' : run ov s acts' = some s') : s'.outs = s.outs ∧ sends s'.ch.log = sends s.ch.log := by
  obtain ⟨l, as, hr⟩ := reach h
  have sh := run_shut l hr (outs := s.outs) (cs := sends s.ch.log) ⟨rfl, rfl, hc, .inl hp⟩ h'
  exact ⟨sh.outs, sh.sends⟩

example : (run saturating (init 26 Nat) (turn (.yielded (some 3)) ++ [.call .close, .rstep, .rstep])).map
    (fun s => (s.pc, s.ch.log.contains .closed)) = some (.yielded, true) := by decide +kernel

/-! ## Memory -/

/-- No undefined behaviour in the schedules in which no end releases the channel while the
other one is still leaving. (Missing: the others, see C28.) -/
theorem C51_pulse_defined_partial {acts : List (Act n ε)} (al : Always ov (fun t => Apart t.ch) (init n ε) acts) :
    ∃ s, run ov (init n ε) acts = some s :=
  run_defined (init_link ov) (as := []) ⟨by simp [Pulse.init, SPc.freeing], by simp [Pulse.init, RPc.freeing]⟩ rfl al

/-- `Always`, computed. -/
def alwaysB (ov : Policy n ε) (P : State n ε → Bool) (s : State n ε) : List (Act n ε) → Bool
  | [] => P s
  | a :: as => P s && (match step ov s a with | none => true | some s' => alwaysB ov P s' as)

theorem always_of_alwaysB {P : State n ε → Bool} {Q : State n ε → Prop} (hPQ : ∀ s, P s = true → Q s) :
    ∀ {acts : List (Act n ε)} {s : State n ε}, alwaysB ov P s acts = true → Always ov Q s acts
  | [], s, h => hPQ s h
  | a :: as, s, h => by
    simp only [alwaysB, Bool.and_eq_true] at h
    refine ⟨hPQ s h.1, fun s' hs => ?_⟩
    rw [hs] at h
    exact always_of_alwaysB hPQ h.2

/-- A poll in the middle of a send, and both ends leaving. -/
def mixed : List (Act 26 Nat) :=
  [.wake, .step, .step, .fib (.yielded (some 1)), .call (.pollNext 1), .rstep, .rstep, .step, .rstep, .rstep, .step, .step] ++
  turn (.complete (.ok (some 3))) ++ poll ++ poll ++ [.call .drop, .rstep, .rstep, .rstep, .rstep]

example : Always saturating (fun t => Apart t.ch) (init 26 Nat) mixed :=
  always_of_alwaysB (P := fun t => (!t.ch.spc.freeing || !t.ch.rpc.leaving) && (!t.ch.rpc.freeing || !t.ch.spc.leaving))
    (fun s h => by
      simp only [Bool.and_eq_true] at h
      exact ⟨fun q => by simpa [q] using h.1, fun q => by simpa [q] using h.2⟩) (by decide +kernel)

example : (run saturating (init 26 Nat) mixed).map (fun s => (s.pc, recvTotal s.ch.log, s.ch.freed)) = some (.done, 4, true) := by
  decide +kernel

end Verif.Fib.PulseStream
