import Verif.Fib.RingRun
import Verif.Ring.Props2
/-! # Properties of fiber streams over the ring channel (C51)

For every behaviour of the fiber, every overflow handler, every capacity `1 < cap < 2 ^ k`
and every interleaving of the generator and the stream at the level of accesses to the
shared object. -/
namespace Verif.Fib.RingStream

open Verif.Spsc Verif.Ring

variable {k cap : Nat} {τ ε : Type} {pol : Policy τ ε}

/-! ## Schedules for the examples -/

/-- A resume of the generator in which the fiber returns `o`, run until it is suspended
again or completed. -/
def turn (o : Out τ ε) : List (Act τ ε) := [.wake, .step, .step, .fib o] ++ List.replicate 12 .step

/-- A whole `poll_next` of the stream. -/
def poll : List (Act τ ε) := .call (.pollNext 1) :: List.replicate 5 .rstep

/-- A `try` stream whose fiber yields 1, 2, 3 into room for two. -/
def failed : List (Act Nat Nat) := turn (.yielded (some 1)) ++ turn (.yielded (some 2)) ++ turn (.yielded (some 3))

/-- A handler that fails with the value that does not fit. -/
def strict : Policy Nat Nat := .bounded fun _ v => some (100 + v)

/-- The values of the fiber go to the channel one by one, each in one call, in order, and
every call has been answered unless one is running; what the channel took is what its calls
accepted; the fiber is not resumed after it completed. -/
theorem C51_ring_calls (h1 : 1 < cap) (hcap : cap < 2 ^ k) {acts : List (Act τ ε)} {s : State k τ ε}
    (h : run cap pol (init k τ ε) acts = some s) :
    (calls s.ch.log).map (·.1) = offered s.outs ∧ pushed s.ch.log = (accepted (calls s.ch.log)).reverse ∧
    (s.pc ≠ .send → s.pc ≠ .sendLast → ∀ c ∈ calls s.ch.log, c.2 ≠ none) ∧
    ∀ o ∈ s.outs.tail, o.isComplete = false := by
  obtain ⟨l, -⟩ := reach h1 hcap h
  refine ⟨l.vals, l.acc, fun q1 q2 => ?_, l.past⟩
  have := l.settled
  rw [Link.notSending l q1 q2] at this
  exact this

example : (run 2 strict (init 13 Nat Nat) failed).map
    (fun s => (calls s.ch.log, s.pc)) = some ([(3, some .dropped), (2, some .accepted), (1, some .accepted)], .done) := by
  decide +kernel

/-- A value is dropped exactly when it does not fit: a call answered `Full` finds `cap`
values pending, one that is accepted finds fewer and an open stream, and one that is
canceled finds the stream closed. A stream that does not overwrite never displaces a value. -/
theorem C51_ring_fits (h1 : 1 < cap) (hcap : cap < 2 ^ k) {acts : List (Act τ ε)} {s : State k τ ε}
    (h : run cap pol (init k τ ε) acts = some s) :
    (∀ l₁ l₂ v, s.ch.log = l₁ ++ .full v :: l₂ → npend l₂ = cap) ∧
    (∀ l₁ l₂ v, s.ch.log = l₁ ++ .push v :: l₂ → npend l₂ < cap ∧ Event.closed ∉ l₂ ∧ lastCall l₂ = some v) ∧
    (∀ l₁ l₂ v, s.ch.log = l₁ ++ .canceled v :: l₂ → Event.closed ∈ l₂) ∧
    (pol ≠ .overwrite → Event.claimTx ∉ s.ch.log) := by
  obtain ⟨l, as, hr⟩ := reach h1 hcap h
  refine ⟨fun l₁ l₂ v e => ?_, fun l₁ l₂ v e => ?_, fun l₁ l₂ v e => ?_, fun q => (l.bounded q).2⟩
  · exact (C29_history h1 hcap hr (v := v)).1 e
  · exact (C29_history h1 hcap hr (v := v)).2.1 e
  · exact (C29_history h1 hcap hr (v := v)).2.2.1 e

example : (run 2 .saturating (init 13 Nat Nat) (failed ++ poll ++ turn (.yielded (some 4)))).map
    (fun s => (calls s.ch.log, received s.ch.log)) =
    some ([(4, some .accepted), (3, some .dropped), (2, some .accepted), (1, some .accepted)], [1]) := by
  decide +kernel

/-- How the generator ends: if the stream was not closed, with the error of the fiber, with
the error of `overflow` for the value that did not fit, or without an error after the fiber
completed. -/
theorem C51_ring_end (h1 : 1 < cap) (hcap : cap < 2 ^ k) {acts : List (Act τ ε)} {s : State k τ ε}
    (h : run cap pol (init k τ ε) acts = some s) (hd : s.pc = .done) (hc : ¬s.closed) :
    finish pol s.outs (calls s.ch.log) = some (errs s.ch.log).head? ∧ (errs s.ch.log).length ≤ 1 := by
  obtain ⟨l, -⟩ := reach h1 hcap h
  rcases (l.done hd).2 with ⟨q1, q2⟩ | ⟨e, q1, q2⟩
  · rcases q2 with q2 | q2
    · exact absurd q2 hc
    · simp [q1, q2]
  · simp [q1, q2]

/-- The error of a stream is its last item: whatever the receiver is handed as an error is
the reason the generator ended with, nothing was pending then, and neither a value is taken
nor received afterwards. -/
theorem C51_ring_last (h1 : 1 < cap) (hcap : cap < 2 ^ k) {acts : List (Act τ ε)} {s : State k τ ε}
    (h : run cap pol (init k τ ε) acts = some s) {l₁ l₂ : List (Event τ ε)} {e : ε} (hl : s.ch.log = l₁ ++ .recvErr e :: l₂) :
    finish pol s.outs (calls s.ch.log) = some (some e) ∧ npend l₂ = 0 ∧ (∀ v, Event.push v ∉ l₁) ∧ Event.claimRx ∉ l₁ ∧
    recvErrs l₁ = [] := by
  obtain ⟨l, as, hr⟩ := reach h1 hcap h
  obtain ⟨a1, a2, a3, -, a5⟩ := C61_error h1 hcap hr
  obtain ⟨b1, b2, b3, b4⟩ := a5 _ _ _ hl
  have hm : ∀ p : List (Event τ ε), recvErrs (p ++ .recvErr e :: l₂) = recvErrs p ++ e :: recvErrs l₂ := by
    intro p
    induction p with
    | nil => rfl
    | cons x p ih => cases x <;> simp [recvErrs, ih]
  have hr' := hm l₁
  rw [← hl] at hr'
  rw [hr'] at a2 a3
  simp only [List.length_append, List.length_cons] at a2
  have hin := a3 e (.inl (by simp))
  refine ⟨?_, b2, b3, b4, ?_⟩
  · cases he : errs s.ch.log with
    | nil => simp [he] at hin
    | cons x xs =>
      obtain ⟨q1, q2⟩ := Link.errs_eq l he
      subst q2
      rw [he] at hin
      simp at hin; subst hin; exact q1
  · cases hh : recvErrs l₁ with
    | nil => rfl
    | cons x xs => simp [hh] at a2; omega

example : (run 2 strict (init 13 Nat Nat) (failed ++ poll ++ poll ++ poll)).map
    (fun s => (s.pc, errs s.ch.log, received s.ch.log, recvErrs s.ch.log)) = some (.done, [103], [1, 2], [103]) := by
  decide +kernel

/-- A saturating stream ends only when its fiber completes (or the stream is closed), and
its only error is the one the fiber completed with. -/
theorem C51_ring_saturating (h1 : 1 < cap) (hcap : cap < 2 ^ k) {acts : List (Act τ ε)} {s : State k τ ε}
    (h : run cap .saturating (init k τ ε) acts = some s) :
    (s.pc = .done → ¬s.closed → ∃ r os, s.outs = .complete r :: os) ∧
    (∀ e, e ∈ errs s.ch.log → ∃ os, s.outs = .complete (.error e) :: os) := by
  obtain ⟨l, -⟩ := reach h1 hcap h
  have key : ∀ {o}, finish .saturating s.outs (calls s.ch.log) = some o → (∃ r os, s.outs = .complete r :: os) ∧
      ∀ e, o = some e → ∃ os, s.outs = .complete (.error e) :: os := by
    intro o hf
    cases ho : s.outs with
    | nil => simp [ho, finish] at hf
    | cons x xs =>
      rw [ho] at hf
      rcases x with (_ | v) | (e | (_ | v))
      · simp [finish] at hf
      · cases hc : calls s.ch.log with
        | nil => simp [hc, finish] at hf
        | cons c cs => obtain ⟨u, f⟩ := c; rcases f with _ | _ | _ | _ <;> simp [hc, finish, Policy.saturating, Policy.overflow] at hf
      · simp [finish] at hf; subst hf; simp
      · simp [finish] at hf; subst hf; simp
      · cases hc : calls s.ch.log with
        | nil => simp [hc, finish] at hf
        | cons c cs =>
          obtain ⟨u, f⟩ := c
          rcases f with _ | _ | _ | _ <;> simp [hc, finish, Policy.saturating, Policy.overflow] at hf <;> subst hf <;> simp
  constructor
  · intro hd hc
    exact (key (C51_ring_end h1 hcap h hd hc).1).1
  · intro e he
    cases hh : errs s.ch.log with
    | nil => simp [hh] at he
    | cons x xs =>
      obtain ⟨q1, q2⟩ := Link.errs_eq l hh
      subst q2
      rw [hh] at he; simp at he; subst he
      exact (key q1).2 e rfl

example : (run 2 .saturating (init 13 Nat Nat) (failed ++ turn (.complete (.error 7)))).map
    (fun s => (s.pc, errs s.ch.log, pushed s.ch.log)) = some (.done, [7], [1, 2]) := by
  decide +kernel

/-- An overwriting stream drops no new value: each is accepted unless the stream was closed,
and a value is displaced only when `cap` values are pending, the oldest one. It ends only
when its fiber completes or the stream is closed, and its only error is the one the fiber
completed with. -/
theorem C51_ring_overwriting (h1 : 1 < cap) (hcap : cap < 2 ^ k) {acts : List (Act τ ε)} {s : State k τ ε}
    (h : run cap .overwrite (init k τ ε) acts = some s) :
    (∀ c ∈ calls s.ch.log, c.2 = some .accepted ∨ (c.2 = some .canceled ∧ s.closed) ∨ (c.2 = none ∧ (s.pc = .send ∨ s.pc = .sendLast))) ∧
    (∀ l₁ l₂, s.ch.log = l₁ ++ .claimTx :: l₂ → npend l₂ = cap ∧ Event.closed ∉ l₂ ∧
      removals (.claimTx :: l₂) = removals l₂ ++ (abs l₂).pend.head?.toList.map (Prod.mk .sender)) ∧
    (s.pc = .done → ¬s.closed → ∃ r os, s.outs = .complete r :: os) ∧
    (∀ e, e ∈ errs s.ch.log → ∃ os, s.outs = .complete (.error e) :: os) := by
  obtain ⟨l, as, hr⟩ := reach h1 hcap h
  have nd := (l.over rfl).2
  have key : ∀ {o}, finish .overwrite s.outs (calls s.ch.log) = some o → (∃ r os, s.outs = .complete r :: os) ∧
      ∀ e, o = some e → ∃ os, s.outs = .complete (.error e) :: os := by
    intro o hf
    cases ho : s.outs with
    | nil => simp [ho, finish] at hf
    | cons x xs =>
      rw [ho] at hf
      rcases x with (_ | v) | (e | (_ | v))
      · simp [finish] at hf
      · cases hc : calls s.ch.log with
        | nil => simp [hc, finish] at hf
        | cons c cs => obtain ⟨u, f⟩ := c; rcases f with _ | _ | _ | _ <;> simp [hc, finish, Policy.overflow] at hf
      · simp [finish] at hf; subst hf; simp
      · simp [finish] at hf; subst hf; simp
      · cases hc : calls s.ch.log with
        | nil => simp [hc, finish] at hf
        | cons c cs =>
          obtain ⟨u, f⟩ := c
          rcases f with _ | _ | _ | _ <;> simp [hc, finish, Policy.overflow] at hf <;> subst hf <;> simp
  refine ⟨fun c hc => ?_, fun l₁ l₂ e => ?_, fun hd hc => (key (C51_ring_end h1 hcap h hd hc).1).1, ?_⟩
  · have hn := nd c hc
    rcases hf : c.2 with _ | _ | _ | _
    · right; right
      refine ⟨rfl, ?_⟩
      by_cases p1 : s.pc = .send
      · exact .inl p1
      · by_cases p2 : s.pc = .sendLast
        · exact .inr p2
        · exact absurd hf ((C51_ring_calls h1 hcap h).2.2.1 p1 p2 c hc)
    · exact .inl rfl
    · exact absurd hf hn
    · exact .inr (.inl ⟨rfl, (honest_of_hist (cap := cap) (Ring.reach h1 hcap hr).2.1.1.hist).canceled ⟨c, hc, hf⟩⟩)
  · have hh := (Ring.reach h1 hcap hr).2.1.1.hist
    rw [e] at hh
    exact ⟨(hist_mem hh).1.1, (hist_mem hh).1.2, rfl⟩
  · intro e he
    cases hh : errs s.ch.log with
    | nil => simp [hh] at he
    | cons x xs =>
      obtain ⟨q1, q2⟩ := Link.errs_eq l hh
      subst q2
      rw [hh] at he; simp at he; subst he
      exact (key q1).2 e rfl

example : (run 2 .overwrite (init 13 Nat Nat) (failed ++ turn (.complete (.ok (some 4))) ++ poll ++ poll ++ poll)).map
    (fun s => (s.pc, overwritten s.ch.log, received s.ch.log)) = some (.done, [1, 2], [3, 4]) := by
  decide +kernel

/-- A stream closed or dropped while the generator is suspended: the fiber is never resumed
again, whatever happens. -/
theorem C51_ring_close (h1 : 1 < cap) (hcap : cap < 2 ^ k) {acts acts' : List (Act τ ε)} {s s' : State k τ ε}
    (h : run cap pol (init k τ ε) acts = some s) (hp : s.pc = .yielded) (hc : s.closed)
    (h' : run cap pol s acts' = some s') : s'.outs = s.outs ∧ pushed s'.ch.log = pushed s.ch.log := by
  obtain ⟨l, as, hr⟩ := reach h1 hcap h
  have sh := run_shut h1 hcap l hr (outs := s.outs) ⟨rfl, hc, .inl hp⟩ h'
  exact ⟨sh.outs, shut_pushed h1 hcap l hr ⟨rfl, hc, .inl hp⟩ h'⟩

example : (run 2 .saturating (init 13 Nat Nat) (turn (.yielded (some 1)) ++ [.call .close, .rstep, .rstep, .rstep])).map
    (fun s => (s.pc, s.ch.log.any fun | .closed => true | _ => false)) = some (.yielded, true) := by
  decide +kernel

/-- What the receiver gets, of a stream that does not overwrite: the accepted values, in
order, up to those still in the channel, provided the two ends never work on the same slot
(`Clash`), while the receiver is not dropped, between calls. (Missing for the full
statement: schedules with a clash, for which the channel itself reorders and loses values,
see C32.) -/
theorem C51_ring_delivered_partial (h1 : 1 < cap) (hcap : cap < 2 ^ k) {acts : List (Act τ ε)} {s : State k τ ε} (hpol : pol ≠ .overwrite)
    (al : Always cap pol (fun t => ¬Clash cap t.ch) (init k τ ε) acts) (h : run cap pol (init k τ ε) acts = some s)
    (hs : s.ch.spc.resting = true) (hr : s.ch.rpc.resting = true) (hd : Event.claimAll ∉ s.ch.log) :
    (accepted (calls s.ch.log)).reverse.map some = (received s.ch.log).map some ++ contents cap s.ch ∧ (contents cap s.ch).length ≤ cap := by
  obtain ⟨l, as, a1, a2⟩ := reach_ind (P := fun t => ¬Clash cap t) h1 hcap al (init_link pol) (as := [])
    (by rintro ⟨i, q, -⟩; simp [Ring.init, SPc.slot] at q) rfl h
  obtain ⟨e1, -, -, -, e2⟩ := C29_removals h1 hcap a1 a2
  rw [← l.acc]
  refine ⟨?_, ?_⟩
  · rw [e1, removals_rx (l.bounded hpol).2 hd, (e2 hs hr).1]
  · have := (Ring.reach h1 hcap a2).2.1.1.len
    simpa [contents] using this

/-- What the receiver gets, of any stream: the accepted values are, in order, those removed
and those still in the channel; the removed ones are those received, those displaced by
later values and those dropped with the receiver, each group in order. -/
theorem C51_ring_removed_partial (h1 : 1 < cap) (hcap : cap < 2 ^ k) {acts : List (Act τ ε)} {s : State k τ ε}
    (al : Always cap pol (fun t => ¬Clash cap t.ch) (init k τ ε) acts) (h : run cap pol (init k τ ε) acts = some s)
    (hs : s.ch.spc.resting = true) (hr : s.ch.rpc.resting = true) :
    ∃ r : List (Who × τ), (accepted (calls s.ch.log)).reverse.map some = (r.map (·.2)).map some ++ contents cap s.ch ∧
      removedBy .receiver r = received s.ch.log ∧ removedBy .sender r = overwritten s.ch.log ∧
      removedBy .drop r = droppedVals s.ch.log := by
  obtain ⟨l, as, a1, a2⟩ := reach_ind (P := fun t => ¬Clash cap t) h1 hcap al (init_link pol) (as := [])
    (by rintro ⟨i, q, -⟩; simp [Ring.init, SPc.slot] at q) rfl h
  obtain ⟨e1, -, -, -, e2⟩ := C29_removals h1 hcap a1 a2
  exact ⟨_, by rw [← l.acc]; exact e1, e2 hs hr⟩

/-- No undefined behaviour in the schedules in which the channel has none. (Missing: the
others, see C32.) -/
theorem C51_ring_defined_partial (h1 : 1 < cap) (hcap : cap < 2 ^ k) {acts : List (Act τ ε)}
    (al : Always cap pol (fun t => Safe cap t.ch) (init k τ ε) acts) : ∃ s, run cap pol (init k τ ε) acts = some s :=
  run_defined h1 hcap (init_link pol) (as := [])
    ⟨⟨by simp [Ring.init, SPc.freeing], by simp [Ring.init, RPc.freeing]⟩, by rintro ⟨i, q, -⟩; simp [Ring.init, SPc.slot] at q,
      by intro i q; simp [Ring.init] at q⟩ rfl al

/-! The hypotheses hold, for instance, for these schedules. -/

/-- `Safe`, computed. -/
def safeB (cap : Nat) (s : Ring.State k τ ε) : Bool :=
  (!s.spc.freeing || !s.rpc.leaving) && (!s.rpc.freeing || !s.spc.leaving) &&
  (match s.spc.slot with | some i => !(s.rpc.slots cap).contains i | none => true) &&
  (match s.rpc with | .tvWake _ => !(s.log.any fun | .closed => true | _ => false) | _ => true)

theorem safe_of_safeB {s : Ring.State k τ ε} (h : safeB cap s = true) : Safe cap s := by
  simp only [safeB, Bool.and_eq_true] at h
  obtain ⟨⟨⟨q1, q2⟩, q3⟩, q4⟩ := h
  refine ⟨⟨fun q => ?_, fun q => ?_⟩, ?_, ?_⟩
  · simpa [q] using q1
  · simpa [q] using q2
  · rintro ⟨i, a1, a2⟩; rw [a1] at q3; simp [a2] at q3
  · intro i q hc
    rw [q] at q4
    simp at q4
    simpa using q4 _ hc

/-- `Always`, computed. -/
def alwaysB (cap : Nat) (pol : Policy τ ε) (P : State k τ ε → Bool) (s : State k τ ε) : List (Act τ ε) → Bool
  | [] => P s
  | a :: as => P s && (match step cap pol s a with | none => true | some s' => alwaysB cap pol P s' as)

theorem always_of_alwaysB {P : State k τ ε → Bool} {Q : State k τ ε → Prop} (hPQ : ∀ s, P s = true → Q s) :
    ∀ {acts : List (Act τ ε)} {s : State k τ ε}, alwaysB cap pol P s acts = true → Always cap pol Q s acts
  | [], s, h => hPQ s h
  | a :: as, s, h => by
    simp only [alwaysB, Bool.and_eq_true] at h
    refine ⟨hPQ s h.1, fun s' hs => ?_⟩
    rw [hs] at h
    exact always_of_alwaysB hPQ h.2

/-- A receive in the middle of a send, and sends in the middle of a receive. -/
def mixed : List (Act Nat Nat) :=
  poll ++ [.wake, .step, .step, .fib (.yielded (some 1)), .step, .step, .call .tryNext, .rstep, .step, .step, .step, .call .tryNext, .rstep] ++
  turn (.yielded (some 2)) ++ [.rstep, .rstep, .rstep] ++ turn (.complete (.ok (some 3))) ++ poll ++ poll ++ poll

example : Always 2 .saturating (fun t => Safe 2 t.ch) (init 13 Nat Nat) mixed :=
  always_of_alwaysB (P := fun t => safeB 2 t.ch) (fun _ => safe_of_safeB) (by decide +kernel)

example : Always 2 .overwrite (fun t => ¬Clash 2 t.ch) (init 13 Nat Nat) mixed :=
  always_of_alwaysB (P := fun t => safeB 2 t.ch) (fun _ h => (safe_of_safeB h).noclash) (by decide +kernel)

example : (run 2 .saturating (init 13 Nat Nat) mixed).map (fun s => (received s.ch.log, s.pc, s.ch.spc.resting, s.ch.rpc.resting)) =
    some ([1, 2, 3], .done, true, true) := by decide +kernel

end Verif.Fib.RingStream
