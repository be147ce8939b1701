import Verif.Pulse.LogRecv
import Verif.Pulse.LogWake
import Verif.Pulse.LogFin
/-! # Properties of the pulse channel (C24–C28, C59)

All theorems are about every schedule of the two ends, at the granularity of
single accesses to the shared object, and about every width of the state word,
unless they say otherwise. Witnesses use a 32-bit word (`n = 26`). -/
namespace Verif.Pulse

open Verif.Spsc

variable {n : Nat} {ε : Type}

private theorem reach {acts : List (Act n ε)} {s : State n ε} (h : run (init n ε) acts = some s) :
    (Inv s ∨ Doomed s) ∧ LogN s ∧ LogA s ∧ LogB s ∧ LogE s := by
  have i0 := init_inv n ε
  have hA := (run_ind step_logA (.inl i0) ⟨init_logN n ε, init_logA n ε⟩ h)
  exact ⟨hA.1, hA.2.1, hA.2.2, (run_ind step_logB (.inl i0) (init_logB n ε) h).2,
    (run_ind step_logE (.inl i0) (init_logE n ε) h).2⟩

private theorem sIdle_inv {acts : List (Act n ε)} {s : State n ε} (h : run (init n ε) acts = some s)
    (hi : s.spc = .idle) : Inv s ∧ s.freed = false := by
  rcases (reach h).1 with i | d
  · exact ⟨i, by rw [i.freed, hi]; rfl⟩
  · rcases d.2 with ⟨d, _⟩ | ⟨_, d⟩ <;> simp [hi, SPc.leaving, sGone] at d

private theorem rIdle_inv {acts : List (Act n ε)} {s : State n ε} (h : run (init n ε) acts = some s)
    (hi : s.rpc = .idle) : Inv s ∧ s.freed = false := by
  rcases (reach h).1 with i | d
  · exact ⟨i, by rw [i.freed, hi]; simp [rGone]⟩
  · rcases d.2 with ⟨_, d⟩ | ⟨d, _⟩ <;> simp [hi, RPc.leaving, rGone] at d

private theorem hist_mem {ok : Event ε → List (Event ε) → Prop} {l₁ l₂ : List (Event ε)} {e : Event ε}
    (h : Hist ok (l₁ ++ e :: l₂)) : ok e l₂ ∧ Hist ok l₂ := by
  induction l₁ with
  | nil => exact h
  | cons a l ih => exact ih h.2

/-- A schedule: poll (pending), send 3, send 4, poll, send the error 9, poll. -/
def demo : List (Act 26 Nat) :=
  [.rCall (.pollNext 1), .rStep, .rStep, .rStep, .sCall (.send 3), .sStep, .sStep, .sCall (.send 4), .sStep, .sStep,
    .rCall (.pollNext 1), .rStep, .sCall (.sendErr 9), .sStep, .sStep, .sStep, .rCall (.pollNext 1), .rStep, .rStep]

/-! ## C24 -/

/-- C24: what was received and what is pending add up to what was sent
successfully. -/
def Conserved (n : Nat) (ε : Type) : Prop :=
  ∀ (acts : List (Act n ε)) (s : State n ε), run (init n ε) acts = some s →
    recvTotal s.log + cnt s.st = accepted n s.log

/-- C24 is false: a send on a closed channel returns `Canceled`, but its pulses
are received. -/
theorem C24_false : ¬ Conserved 26 Nat := by
  intro h
  have := h [.rCall .close, .rStep, .sCall (.send 3), .sStep, .rCall .tryNext, .rStep] _ rfl
  exact absurd this (by decide +kernel)

private theorem pend_noCanceled {l : List (Event ε)} (h : noCanceled l) : pend n true l = pend n false l := by
  induction l with
  | nil => rfl
  | cons e l ih =>
    cases e with
    | send p r => cases r <;> simp [noCanceled, pend] at * <;> exact ih h
    | sat p r => cases r <;> simp [noCanceled, pend] at * <;> first | exact ih h | rw [ih h]
    | recv k => simp only [pend]; rw [ih h]
    | _ => exact ih h

private theorem noCanceled_tail {e : Event ε} {l : List (Event ε)} (h : noCanceled (e :: l)) : noCanceled l := by
  cases e with
  | send p r => cases r <;> first | exact h | exact h.elim
  | sat p r => cases r <;> first | exact h | exact h.elim
  | _ => exact h

private theorem pend_le {l : List (Event ε)} (h : Hist (OkCount n) l) : pend n true l ≤ maxPulses n := by
  induction l with
  | nil => simp [pend]
  | cons e l ih =>
    have ih := ih h.2
    have h1 := h.1
    cases e with
    | send p r => cases r <;> simp only [pend, OkCount] at * <;> grind
    | sat p r => cases r <;> simp only [pend, OkCount] at * <;> grind
    | recv k => simp only [pend]; omega
    | _ => exact ih

private theorem conserve {l : List (Event ε)} (h : Hist (OkCount n) l) (hc : noCanceled l) :
    recvTotal l + pend n true l = accepted n l := by
  induction l with
  | nil => rfl
  | cons e l ih =>
    have hc' := noCanceled_tail hc
    have ih := ih h.2 hc'
    have h1 := h.1
    have hle := pend_le h.2
    have hp := pend_noCanceled (n := n) hc'
    cases e with
    | send p r => cases r <;> simp only [pend, OkCount, recvTotal, accepted, noCanceled] at * <;> omega
    | sat p r => cases r <;> simp only [pend, OkCount, recvTotal, accepted, noCanceled, ← hp] at * <;> omega
    | recv k => simp only [pend, OkCount, recvTotal, accepted] at *; omega
    | _ => exact ih

/-- C24 as long as no send was refused because of a close. -/
theorem C24_partial {acts : List (Act n ε)} {s : State n ε} (h : run (init n ε) acts = some s)
    (hc : noCanceled s.log) : recvTotal s.log + cnt s.st = accepted n s.log := by
  obtain ⟨-, c, -⟩ := reach h
  rw [c.count]
  exact conserve c.hist hc

/-- Without closing there are no refused sends. -/
theorem C24_open_partial {acts : List (Act n ε)} {s : State n ε} (h : run (init n ε) acts = some s)
    (hc : Event.closed ∉ s.log) : recvTotal s.log + cnt s.st = accepted n s.log := by
  refine C24_partial h ?_
  have hh := (reach h).2.1.hist
  generalize s.log = l at hc hh
  induction l with
  | nil => trivial
  | cons e l ih =>
    have ih := ih (fun q => hc (List.mem_cons_of_mem _ q)) hh.2
    have h1 := hh.1
    have hc' : Event.closed ∉ l := fun q => hc (List.mem_cons_of_mem _ q)
    cases e with
    | send p r => cases r <;> first | exact ih | exact hc' h1.1
    | sat p r => cases r <;> first | exact ih | exact hc' h1
    | _ => exact ih

/-- Every receive hands out exactly the pulses pending at that moment, which are
those sent since the last receive; the pending pulses are what the counter holds. -/
theorem C24_receive {acts : List (Act n ε)} {s : State n ε} (h : run (init n ε) acts = some s) :
    cnt s.st = pend n true s.log ∧
    ∀ l₁ l₂ k, s.log = l₁ ++ .recv k :: l₂ → 0 < k ∧ k = pend n true l₂ := by
  obtain ⟨-, c, -⟩ := reach h
  refine ⟨c.count, ?_⟩
  intro l₁ l₂ k hl
  have hh := c.hist
  rw [hl] at hh
  exact (hist_mem hh).1

example : (run (init 26 Nat) demo).map (fun s => (recvTotal s.log, accepted 26 s.log, cnt s.st)) = some (7, 7, 0) := by
  decide +kernel
example : (run (init 26 Nat) (demo.take 10)).map (fun s => (recvTotal s.log, accepted 26 s.log, cnt s.st)) =
    some (0, 7, 7) := by decide +kernel

/-! ## C25 -/

/-- C25: a step that ends a send with an error leaves the shared object alone. -/
def FailedSendSilent (n : Nat) (ε : Type) : Prop :=
  ∀ (acts : List (Act n ε)) (s s' : State n ε) (a : Act n ε) (p : Nat) (r : Res),
    run (init n ε) acts = some s → step s a = some s' →
    (s'.log = .send p r :: s.log ∨ s'.log = .sat p r :: s.log) → r ≠ .ok → s'.st = s.st

/-- C25 is false: `send` on a closed channel returns `Canceled` and counts. -/
theorem C25_false : ¬ FailedSendSilent 26 Nat := by
  intro h
  have := h [.rCall .close, .rStep, .sCall (.send 3)] _ _ .sStep 3 .canceled rfl rfl (.inl rfl) (by decide)
  exact absurd this (by decide +kernel)

/-- … and so does `saturating_send`. -/
theorem C25_false_saturating :
    ∃ (acts : List (Act 26 Nat)) (s : State 26 Nat), run (init 26 Nat) acts = some s ∧
      s.log = [.recv 3, .sat 3 .canceled, .closed] :=
  ⟨[.rCall .close, .rStep, .sCall (.sat 3), .sStep, .rCall .tryNext, .rStep], _, rfl, by decide +kernel⟩

/-- C25 for `Full`: the call has no effect at all. -/
theorem C25_partial {s s' : State n ε} {a : Act n ε} {p : Nat} (hs : step s a = some s')
    (hl : s'.log = .send p .full :: s.log) :
    s' = { s with spc := .idle, log := .send p .full :: s.log } := by
  obtain ⟨st, data, rxw, txw, freed, spc, rpc, log⟩ := s
  have nocons : ∀ (e : Event ε), log ≠ e :: log := fun e q => by
    have := congrArg List.length q
    simp at this
  cases a with
  | sCall op =>
    simp only [step] at hs
    split at hs <;> simp only [Option.some.injEq] at hs <;> subst hs
    · rename_i hi
      cases spc <;> simp [SPc.isIdle] at hi
      cases op with
      | send q =>
        simp only [sCall] at hl ⊢
        split at hl
        · rename_i h1
          simp only [h1, if_true, State.emit] at hl ⊢
          rw [hl]
        · exact absurd hl (nocons _)
      | sendErr e => simp [sCall, State.emit] at hl
      | _ => exact absurd hl (nocons _)
    · exact absurd hl (nocons _)
  | rCall op =>
    simp only [step] at hs
    split at hs <;> simp only [Option.some.injEq] at hs <;> subst hs
    · cases op <;> exact absurd hl (nocons _)
    · exact absurd hl (nocons _)
  | sStep =>
    simp only [step] at hs
    cases spc with
    | sendRmw q =>
      simp only [sStep, SPc.resting, sendTail, State.emit, Bool.false_eq_true, if_false] at hs
      (repeat' split at hs) <;> simp only [Option.some.injEq, reduceCtorEq] at hs <;> subst hs <;>
        simp only [List.cons.injEq, Event.send.injEq, reduceCtorEq, and_true, and_false] at hl
      rename_i h1
      simp only [Option.isNone_iff_eq_none] at h1
      simp [addWord, h1, hl]
    | _ =>
      simp only [sStep, SPc.resting, satTail, errTail, State.emit, State.release, Bool.false_eq_true, if_false, if_true] at hs
      (repeat' split at hs) <;> simp only [Option.some.injEq, reduceCtorEq] at hs <;> subst hs <;>
        first
        | exact absurd hl (nocons _)
        | (simp at hl; done)
  | rStep =>
    simp only [step] at hs
    cases rpc <;>
    · simp only [rStep, RPc.resting, gotCount, dropTail, State.emit, State.release, Bool.false_eq_true, if_false, if_true] at hs
      (repeat' split at hs) <;> simp only [Option.some.injEq, reduceCtorEq] at hs <;> subst hs <;>
        first
        | exact absurd hl (nocons _)
        | (simp at hl; done)

/-- On a channel that is not closed `Full` is the only error. -/
theorem C25_open_partial {acts : List (Act n ε)} {s : State n ε} (h : run (init n ε) acts = some s)
    (hc : Event.closed ∉ s.log) (p : Nat) : Event.send p .canceled ∉ s.log ∧ ∀ r, r ≠ .ok → Event.sat p r ∉ s.log := by
  have hh := (reach h).2.1.hist
  refine ⟨fun hm => ?_, fun r hr hm => ?_⟩
  · obtain ⟨l₁, l₂, e⟩ := List.append_of_mem hm
    rw [e] at hh hc
    exact hc (List.mem_append_right _ (List.mem_cons_of_mem _ (hist_mem hh).1.1))
  · obtain ⟨l₁, l₂, e⟩ := List.append_of_mem hm
    rw [e] at hh hc
    cases r
    · exact hr rfl
    · exact (hist_mem hh).1
    · exact hc (List.mem_append_right _ (List.mem_cons_of_mem _ (hist_mem hh).1))

/-- A full counter refuses. -/
example : (run (init 26 Nat) [.sCall (.send 134217727), .sStep, .sCall (.send 1), .sStep]).map
    (fun s => (s.log, cnt s.st)) = some ([.send 1 .full, .send 134217727 .ok], 134217727) := by decide +kernel

/-! ## C26 -/

private theorem run_two {s t : State n ε} {op : SOp n ε} (hi : s.spc = .idle) (h : sStep (sCall s op) = some t) :
    run s [.sCall op, .sStep] = some t := by
  simp only [run, step, hi, SPc.isIdle, if_true, h]

private theorem run_full {s : State n ε} {p : Word n} (hi : s.spc = .idle) (h : capacity n - 1 < p) :
    run s [.sCall (.send p), .sStep] = some (s.emit (.send p.toNat .full)) := by
  refine run_two hi ?_
  simp only [sCall]
  rw [if_pos h]
  simp only [sStep, State.emit, hi, SPc.resting, if_true]

private theorem run_send {s : State n ε} {p : Word n} (hi : s.spc = .idle) (hf : s.freed = false)
    (h : ¬capacity n - 1 < p) :
    run s [.sCall (.send p), .sStep] =
      some (sendTail { s with st := addWord s.st (p <<< 5), spc := .sendRmw p } s.st p) := by
  refine run_two hi ?_
  simp only [sCall]
  rw [if_neg h]
  simp only [sStep, hf, SPc.resting, Bool.false_eq_true, if_false]

private theorem run_sat {s : State n ε} {p : Word n} (hi : s.spc = .idle) (hf : s.freed = false) :
    run s [.sCall (.sat p), .sStep] =
      some (satTail { s with st := satWord s.st (satArg p), spc := .satRmw p } s.st p) := by
  refine run_two hi ?_
  simp only [sCall, sStep, hf, SPc.resting, Bool.false_eq_true, if_false]

/-- What `send` does on a channel whose sender is between calls: it reports `Full`
exactly if the pulses do not fit, and then changes nothing; otherwise it adds them.
The flags stay. -/
theorem C26_send {acts : List (Act n ε)} {s : State n ε} (h : run (init n ε) acts = some s)
    (hi : s.spc = .idle) (p : Word n) :
    ∃ s' r, run s [.sCall (.send p), .sStep] = some s' ∧ s'.log = .send p.toNat r :: s.log ∧
      (r = .full ↔ maxPulses n < cnt s.st + p.toNat) ∧
      (r = .full → s' = { s with log := s'.log }) ∧
      (r ≠ .full → cnt s'.st = cnt s.st + p.toNat ∧ (r = .ok ↔ Event.closed ∉ s.log)) ∧
      (∀ i, i < 5 → s'.st.getLsbD i = s.st.getLsbD i) := by
  obtain ⟨-, hf⟩ := sIdle_inv h hi
  have hcl := (reach h).2.1.closed
  have hp : 0 < 2 ^ (n + 1) := Nat.pos_of_ne_zero (by simp)
  by_cases hcap : capacity n - 1 < p
  · have h1 : ¬p.toNat < 2 ^ (n + 1) := fun g => lt_capacity.2 g hcap
    refine ⟨_, .full, run_full hi hcap, rfl, ?_, ?_, ?_, ?_⟩
    · simp only [true_iff, maxPulses]; omega
    · intro _; rfl
    · intro q; exact absurd rfl q
    · intro i _; rfl
  · have h1 := lt_capacity.1 hcap
    have hflag : ∀ i, i < 5 → (addWord s.st (p <<< 5)).getLsbD i = s.st.getLsbD i := by
      intro i hi
      have := has_addWord s.st p h1 hi
      rwa [has_flag, has_flag] at this
    have hn := checkedAdd_isNone s.st p h1
    have hc := cnt_addWord s.st p h1
    have hr := run_send (s := s) hi hf hcap
    unfold sendTail at hr
    cases hN : (checkedAdd s.st (p <<< 5)).isNone with
    | true =>
      rw [hN] at hn
      have hle : 2 ^ (n + 1) ≤ cnt s.st + p.toNat := of_decide_eq_true hn.symm
      have hsame : addWord s.st (p <<< 5) = s.st := by
        simp only [Option.isNone_iff_eq_none] at hN
        simp [addWord, hN]
      rw [if_pos hN] at hr
      refine ⟨_, .full, hr, rfl, ?_, ?_, ?_, hflag⟩
      · simp only [true_iff, maxPulses]; omega
      · intro _; simp [State.emit, hsame, ← hi]
      · intro q; exact absurd rfl q
    | false =>
      rw [hN] at hn
      have hle : ¬2 ^ (n + 1) ≤ cnt s.st + p.toNat := of_decide_eq_false hn.symm
      rw [if_neg hle] at hc
      rw [if_neg (by rw [hN]; simp)] at hr
      have fin : ∀ (t : State n ε) (r : Res), run s [.sCall (.send p), .sStep] = some t → t.log = .send p.toNat r :: s.log →
          t.st = addWord s.st (p <<< 5) → r ≠ .full → (r = .ok ↔ Event.closed ∉ s.log) →
          ∃ s' r, run s [.sCall (.send p), .sStep] = some s' ∧ s'.log = .send p.toNat r :: s.log ∧
            (r = .full ↔ maxPulses n < cnt s.st + p.toNat) ∧
            (r = .full → s' = { s with log := s'.log }) ∧
            (r ≠ .full → cnt s'.st = cnt s.st + p.toNat ∧ (r = .ok ↔ Event.closed ∉ s.log)) ∧
            (∀ i, i < 5 → s'.st.getLsbD i = s.st.getLsbD i) := by
        intro t r e1 e2 e3 e4 e5
        refine ⟨t, r, e1, e2, ?_, fun q => absurd q e4, ?_, ?_⟩
        · simp only [e4, false_iff, maxPulses]; omega
        · intro _; rw [e3]; exact ⟨hc, e5⟩
        · rw [e3]; exact hflag
      by_cases hC : has s.st (CLOSED n) = true
      · rw [if_pos hC] at hr
        exact fin _ .canceled hr rfl rfl (by simp) (by simp [hcl, hC])
      · rw [if_neg hC] at hr
        by_cases hR : has s.st (RX n) = true
        · rw [if_pos hR] at hr
          exact fin _ .ok hr rfl rfl (by simp) (by simp [hcl, hC])
        · rw [if_neg hR] at hr
          exact fin _ .ok hr rfl rfl (by simp) (by simp [hcl, hC])

/-- Over interleavings: every `Full` was reported with too many pulses pending,
every other result with room for the pulses. -/
theorem C26_history {acts : List (Act n ε)} {s : State n ε} (h : run (init n ε) acts = some s)
    {l₁ l₂ : List (Event ε)} {p : Nat} {r : Res} (hl : s.log = l₁ ++ .send p r :: l₂) :
    (r = .full ↔ maxPulses n < pend n true l₂ + p) := by
  have hh := (reach h).2.1.hist
  rw [hl] at hh
  have := (hist_mem hh).1
  cases r <;> simp [OkCount] at this ⊢ <;> omega

/-- The counter and the flags are independent: no step of a schedule changes the
counter except by the sends and receives in the log, and the close flag says
exactly whether the channel was closed. -/
theorem C26_no_spill {acts : List (Act n ε)} {s : State n ε} (h : run (init n ε) acts = some s) :
    cnt s.st = pend n true s.log ∧ cnt s.st ≤ maxPulses n ∧ (has s.st (CLOSED n) = true ↔ Event.closed ∈ s.log) := by
  obtain ⟨-, c, -⟩ := reach h
  refine ⟨c.count, ?_, c.closed.symm⟩
  have := cnt_lt s.st
  unfold maxPulses
  omega

example : (run (init 26 Nat) [.sCall (.send 134217727), .sStep]).map (fun s => (s.spc.isIdle, cnt s.st)) =
    some (true, 134217727) := by decide +kernel
example : maxPulses 26 = 134217727 := by decide +kernel

/-! ## C27 -/

/-- What `saturating_send` does on a channel whose sender is between calls. -/
theorem C27_saturating {acts : List (Act n ε)} {s : State n ε} (h : run (init n ε) acts = some s)
    (hi : s.spc = .idle) (p : Word n) :
    ∃ s' r, run s [.sCall (.sat p), .sStep] = some s' ∧ s'.log = .sat p.toNat r :: s.log ∧ r ≠ .full ∧
      (r = .ok ↔ Event.closed ∉ s.log) ∧
      cnt s'.st = min (cnt s.st + p.toNat) (maxPulses n) ∧
      (∀ i, i < 5 → s'.st.getLsbD i = s.st.getLsbD i) := by
  obtain ⟨-, hf⟩ := sIdle_inv h hi
  have hcl := (reach h).2.1.closed
  have hflag : ∀ i, i < 5 → (satWord s.st (satArg p)).getLsbD i = s.st.getLsbD i := by
    intro i hi
    have := has_satWord s.st p hi
    rwa [has_flag, has_flag] at this
  have hc := cnt_satWord s.st p
  have hr := run_sat (s := s) (p := p) hi hf
  unfold satTail at hr
  by_cases hC : has s.st (CLOSED n) = true
  · rw [if_pos hC] at hr
    exact ⟨_, .canceled, hr, rfl, by simp, by simp [hcl, hC], hc, hflag⟩
  · rw [if_neg hC] at hr
    by_cases hR : has s.st (RX n) = true
    · rw [if_pos hR] at hr
      exact ⟨_, .ok, hr, rfl, by simp, by simp [hcl, hC], hc, hflag⟩
    · rw [if_neg hR] at hr
      exact ⟨_, .ok, hr, rfl, by simp, by simp [hcl, hC], hc, hflag⟩

/-- Over interleavings: a saturating send never reports `Full`, and fails exactly
on a closed channel. -/
theorem C27_history {acts : List (Act n ε)} {s : State n ε} (h : run (init n ε) acts = some s)
    {l₁ l₂ : List (Event ε)} {p : Nat} {r : Res} (hl : s.log = l₁ ++ .sat p r :: l₂) :
    r ≠ .full ∧ (r = .ok ↔ Event.closed ∉ l₂) := by
  have hh := (reach h).2.1.hist
  rw [hl] at hh
  have := (hist_mem hh).1
  cases r <;> simp [OkCount] at this ⊢ <;> exact this

example : (run (init 26 Nat) [.sCall (.send 5), .sStep, .sCall (.sat 134217725), .sStep, .sCall (.sat 4294967295), .sStep]).map
    (fun s => (s.log.length, cnt s.st)) = some (3, 134217727) := by decide +kernel

/-! ## C28 -/

/-- Once the end was reported nothing more is handed out. -/
def EndIsFinal (n : Nat) (ε : Type) : Prop :=
  ∀ (acts : List (Act n ε)) (s : State n ε) (l₁ l₂ : List (Event ε)) (e : Event ε),
    run (init n ε) acts = some s → s.log = l₁ ++ e :: l₂ → e = .ended ∨ e = .terminated true →
    ∀ k, Event.recv k ∉ l₁

/-- This is false: after a close the end is reported, and then a refused send
makes pulses show up. -/
theorem C28_false : ¬ EndIsFinal 26 Nat := by
  intro h
  have := h [.rCall .close, .rStep, .rCall .tryNext, .rStep, .rCall .isTerminated, .rStep, .sCall (.send 3), .sStep,
    .rCall .tryNext, .rStep] _ [.recv 3, .send 3 .canceled] [.ended, .closed] (.terminated true) rfl rfl (.inr rfl) 3
  exact this (by decide)

private theorem left_tail {e : Event ε} {l : List (Event ε)} (h : SenderLeft l) : SenderLeft (e :: l) := by
  rcases h with h | h
  · cases e <;> first | exact .inl h | exact .inl (by simp [errs])
  · exact .inr (List.mem_cons_of_mem _ h)

/-- Nothing is sent and, if nothing is pending, nothing received once the sender
left. -/
private theorem after_left {l₁ l₂ : List (Event ε)} (hl : SenderLeft l₂) (h1 : Hist OkErr (l₁ ++ l₂))
    (h2 : Hist (OkCount n) (l₁ ++ l₂)) :
    SenderLeft (l₁ ++ l₂) ∧ (∀ p r, Event.send p r ∉ l₁ ∧ Event.sat p r ∉ l₁) ∧
      (pend n true l₂ = 0 → pend n true (l₁ ++ l₂) = 0 ∧ ∀ k, Event.recv k ∉ l₁) := by
  induction l₁ with
  | nil => exact ⟨hl, by simp, fun h => ⟨h, by simp⟩⟩
  | cons e l ih =>
    obtain ⟨i1, i2, i3⟩ := ih h1.2 h2.2
    have k1 := h1.1
    have k2 := h2.1
    have no : ¬(errs (l ++ l₂) = [] ∧ Event.sDropped ∉ l ++ l₂) := by
      rintro ⟨q1, q2⟩
      rcases i1 with i1 | i1
      · exact i1 q1
      · exact q2 i1
    refine ⟨left_tail i1, ?_, ?_⟩
    · intro p r
      cases e <;> first | exact absurd k1 no | simp [i2 p r]
    · intro h0
      obtain ⟨j1, j2⟩ := i3 h0
      cases e with
      | send p r => exact absurd k1 no
      | sat p r => exact absurd k1 no
      | recv k =>
        have k3 := k2.1
        have k4 := k2.2
        change 0 < k at k3
        change k = pend n true (l ++ l₂) at k4
        omega
      | _ => exact ⟨j1, fun k => by simp [j2 k]⟩

/-- C28 for the end reported after the sender left: nothing more is handed out,
neither pulses nor an error. (Missing for the full statement: the case that the
channel was closed by the receiver, where the code hands out the pulses of refused
sends.) -/
theorem C28_partial {acts : List (Act n ε)} {s : State n ε} {l₁ l₂ : List (Event ε)} {e : Event ε}
    (h : run (init n ε) acts = some s) (hl : s.log = l₁ ++ e :: l₂) (he : e = .ended ∨ e = .terminated true)
    (hs : SenderLeft l₂) : (∀ k, Event.recv k ∉ l₁) ∧ ∀ x, Event.recvErr x ∉ l₁ := by
  obtain ⟨-, c, a, -, f⟩ := reach h
  have h1 := a.hist
  have h2 := c.hist
  have h3 := f.hist
  rw [hl] at h1 h2 h3
  refine ⟨?_, ?_⟩
  · have h0 : pend n true (e :: l₂) = 0 := by
      have := (hist_mem h2).1
      rcases he with rfl | rfl
      · exact this
      · exact this rfl
    exact ((after_left (left_tail hs) h1 h2).2.2 h0).2
  · intro x hx
    obtain ⟨m₁, m₂, em⟩ := List.append_of_mem hx
    rw [em, List.append_assoc] at h3
    have := (hist_mem h3).1
    rcases he with rfl | rfl <;> simp [OkFin] at this

/-- An error is handed out after the end was reported in no case. -/
theorem C28_end_no_error {acts : List (Act n ε)} {s : State n ε} {l₁ l₂ : List (Event ε)} {e : Event ε}
    (h : run (init n ε) acts = some s) (hl : s.log = l₁ ++ e :: l₂) (he : e = .ended ∨ e = .terminated true) :
    ∀ x, Event.recvErr x ∉ l₁ := by
  have h3 := (reach h).2.2.2.2.hist
  rw [hl] at h3
  intro x hx
  obtain ⟨m₁, m₂, em⟩ := List.append_of_mem hx
  rw [em, List.append_assoc] at h3
  have := (hist_mem h3).1
  rcases he with rfl | rfl <;> simp [OkFin] at this

/-- The error: at most one is sent; it is handed out at most once, and only if it
was sent and not handed back; a successful `send_err` was called before the close.
When it is handed out no pulses are pending, and afterwards nothing is. -/
theorem C28_error {acts : List (Act n ε)} {s : State n ε} (h : run (init n ε) acts = some s) :
    (errs s.log).length ≤ 1 ∧
    (recvErrs s.log).length + (dropErrs s.log).length + (returned s.log).length ≤ (errs s.log).length ∧
    (∀ x, x ∈ recvErrs s.log ∨ x ∈ dropErrs s.log ∨ x ∈ returned s.log → x ∈ errs s.log) ∧
    (Event.errOk ∈ s.log → returned s.log = []) ∧
    ∀ l₁ l₂ x, s.log = l₁ ++ .recvErr x :: l₂ →
      errs l₂ = [x] ∧ pend n true l₂ = 0 ∧ (∀ k, Event.recv k ∉ l₁) ∧ ∀ p r, Event.send p r ∉ l₁ ∧ Event.sat p r ∉ l₁ := by
  obtain ⟨-, c, a, -⟩ := reach h
  have hv := a.vals
  have hl := congrArg List.length hv
  simp only [List.length_append] at hl
  refine ⟨a.one, by omega, ?_, fun ho => (a.ok ho).2.1, ?_⟩
  · rintro x hx
    rw [hv]
    simp only [List.mem_append]
    grind
  · intro l₁ l₂ x e
    have h1 := a.hist
    have h2 := c.hist
    rw [e] at h1 h2
    have q1 := (hist_mem h1).1
    have q2 : pend n true l₂ = 0 := (hist_mem h2).1
    have hs : SenderLeft (Event.recvErr x :: l₂) := left_tail (.inl (by rw [q1.1]; simp))
    obtain ⟨-, r1, r2⟩ := after_left hs h1 h2
    exact ⟨q1.1, q2, (r2 q2).2, r1⟩

/-- The end is reported only with nothing pending, after the sender left or the
channel was closed, and not before a successfully sent error was received. -/
theorem C28_end {acts : List (Act n ε)} {s : State n ε} {l₁ l₂ : List (Event ε)} {e : Event ε}
    (h : run (init n ε) acts = some s) (hl : s.log = l₁ ++ e :: l₂) (he : e = .ended ∨ e = .terminated true) :
    pend n true l₂ = 0 ∧ (SenderLeft l₂ ∨ Event.closed ∈ l₂) ∧ (Event.errOk ∈ l₂ → recvErrs l₂ ≠ []) := by
  obtain ⟨-, c, a, -⟩ := reach h
  have h1 := a.hist
  have h2 := c.hist
  rw [hl] at h1 h2
  have q1 := (hist_mem h1).1
  have q2 := (hist_mem h2).1
  rcases he with rfl | rfl
  · exact ⟨q2, q1⟩
  · exact ⟨q2 rfl, q1⟩

/-- `is_terminated` answers whether the next receive would report the end, and if
it says no there is a reason. -/
theorem C28_is_terminated {acts : List (Act n ε)} {s : State n ε} (h : run (init n ε) acts = some s)
    (hr : s.rpc = .idle) :
    ∃ b, (run s [.rCall .isTerminated, .rStep]).map (·.log) = some (.terminated b :: s.log) ∧
      (b = true ↔ (run s [.rCall .tryNext, .rStep]).map (·.log) = some (.ended :: s.log)) ∧
      (b = false → pend n true s.log ≠ 0 ∨ (Event.closed ∉ s.log ∧ Event.sDropped ∉ s.log ∧ Event.errOk ∉ s.log) ∨
        (errs s.log ≠ [] ∧ Untaken s.log ∧ calledOpen s.log)) := by
  obtain ⟨inv, hf⟩ := rIdle_inv h hr
  have hres : ∀ t, run s [.rCall .isTerminated, .rStep] = some t → LogA t := fun t ht =>
    (reach (acts := acts ++ [.rCall .isTerminated, .rStep]) (s := t) (by
      have : ∀ (u : State n ε) (xs ys : List (Act n ε)), run u (xs ++ ys) = (run u xs).bind (fun v => run v ys) := by
        intro u xs ys
        induction xs generalizing u with
        | nil => rfl
        | cons x xs ih => simp only [List.cons_append, run]; split <;> simp [*]
      rw [this, h]; exact ht)).2.2.1
  obtain ⟨st, data, rxw, txw, freed, spc, rpc, log⟩ := s
  dsimp only at hr hf
  subst hr hf
  refine ⟨(has st (HALF n) || has st (CLOSED n)) && !has st (ERR n) && cnt st == 0, ?_, ?_, ?_⟩
  · simp [run, step, rCall, RPc.isIdle, rStep, RPc.resting, State.emit]
  · by_cases h0 : cnt st = 0 <;> cases h1 : has st (ERR n) <;> cases h2 : has st (HALF n) <;> cases h3 : has st (CLOSED n) <;>
      simp [run, step, rCall, RPc.isIdle, rStep, RPc.resting, State.emit, gotCount, h0, h1, h2, h3]
  · intro hb
    have q : Hist (OkTerm n) (Event.terminated _ :: log) :=
      (hres _ (by simp [run, step, rCall, RPc.isIdle, rStep, RPc.resting, State.emit]; rfl)).term
    have := q.1
    rw [hb] at this
    exact this

/-- C28, memory: no schedule leads to undefined behaviour. -/
def NeverUB (n : Nat) (ε : Type) : Prop := ∀ acts : List (Act n ε), run (init n ε) acts ≠ none

/-- This is false: the sender is dropped and preempted before it takes the
receiver's waker; the receiver is dropped and releases the object. -/
theorem C28_memory_false : ¬ NeverUB 26 Nat := by
  intro h
  have := h [.rCall (.pollNext 1), .rStep, .rStep, .rStep, .sCall .drop, .sStep,
    .rCall .drop, .rStep, .rStep, .sStep]
  exact absurd this (by decide +kernel)

/-- … and the other way round. -/
theorem C28_memory_false_receiver : ∃ acts : List (Act 26 Nat), run (init 26 Nat) acts = none ∧
    ∃ s, run (init 26 Nat) acts.dropLast = some s ∧ s.freed = true ∧ s.rpc.leaving = true :=
  ⟨[.sCall (.pollCanceled 1), .sStep, .sStep, .sStep, .rCall .drop, .rStep, .sCall .drop, .sStep, .sStep, .rStep],
    by decide +kernel, _, rfl, by decide +kernel, by decide +kernel⟩

/-- Memory, under the condition that no end releases the object while the other
one is still leaving: no undefined behaviour; the object is released exactly when
both ends are gone, once; then nothing is left in it. -/
theorem C28_memory_partial {acts : List (Act n ε)} (ap : Always Apart (init n ε) acts) :
    ∃ s, run (init n ε) acts = some s ∧
      (s.freed = true ↔ s.spc = .gone ∧ s.rpc = .gone) ∧
      frees s.log = (if s.freed then 1 else 0) ∧
      (s.freed = true → s.err = none ∧ s.rxw = none ∧ s.txw = none) := by
  obtain ⟨s, h, inv⟩ := run_inv (init_inv n ε) ap
  obtain ⟨-, -, a, -⟩ := reach h
  have hg : s.freed = true ↔ s.spc = .gone ∧ s.rpc = .gone := by
    rw [inv.freed]
    cases hs : s.spc <;> cases hr : s.rpc <;> simp [sGone, rGone]
  refine ⟨s, h, hg, a.frees, ?_⟩
  intro hf
  obtain ⟨h1, h2⟩ := hg.1 hf
  have hd := inv.data
  have hr := inv.rxw
  have ht := inv.txw
  have hc := inv.closed
  rw [h1, h2] at hd hr ht
  rw [h2] at hc
  simp only [sWritten, rDone, rRead, sFail, rRx, sDone, Pulse.sWk, sTx, rTx] at hd hr ht hc
  have hc := hc trivial
  refine ⟨?_, ?_, ?_⟩
  · cases hh : s.err <;> simp_all
  · cases hh : s.rxw <;> simp_all
  · cases hh : s.txw <;> simp_all

/-- Calls that do not overlap satisfy the condition. -/
theorem C28_sequential_partial {acts : List (Act n ε)} (h : Always Sequential (init n ε) acts) :
    Always Apart (init n ε) acts := by
  have key : ∀ t : State n ε, Sequential t → Apart t := by
    rintro t (ht | ht)
    · refine ⟨fun hf => ?_, fun _ => ?_⟩
      · cases hh : t.spc <;> simp_all [SPc.resting, SPc.freeing]
      · cases hh : t.spc <;> simp_all [SPc.resting, SPc.leaving]
    · refine ⟨fun _ => ?_, fun hf => ?_⟩
      · cases hh : t.rpc <;> simp_all [RPc.resting, RPc.leaving]
      · cases hh : t.rpc <;> simp_all [RPc.resting, RPc.freeing]
  suffices ∀ s : State n ε, Always Sequential s acts → Always Apart s acts from this _ h
  clear h
  intro s hs
  induction acts generalizing s with
  | nil => exact key _ hs
  | cons a as ih => exact ⟨key _ hs.1, fun s' h' => ih s' (hs.2 s' h')⟩

example : (run (init 26 Nat) demo).map (fun s => (recvErrs s.log, errs s.log)) = some ([9], [9]) := by decide +kernel
example : (run (init 26 Nat) (demo ++ [.rCall .tryNext, .rStep, .rCall .drop, .rStep, .rStep])).map
    (fun s => (s.log.take 3, s.freed, s.spc, s.rpc)) = some ([.freed, .closed, .ended], true, .gone, .gone) := by
  decide +kernel
/-- Pulses and an error at the same time: the pulses come first. -/
example : (run (init 26 Nat) [.sCall (.send 3), .sStep, .sCall (.sendErr 9), .sStep, .sStep,
    .rCall .tryNext, .rStep, .rStep, .rCall .tryNext, .rStep, .rStep, .rCall .isTerminated, .rStep]).map
    (fun s => s.log.take 3) = some [.terminated true, .recvErr 9, .recv 3] := by decide +kernel

/-! ## C59 -/

/-- C59: if the last poll was pending and since then something was sent, or the
sender left, on a channel that is not closed, and the sender's call has returned,
the waker of that poll has been woken. -/
def LatestWaker (n : Nat) (ε : Type) : Prop :=
  ∀ (acts : List (Act n ε)) (s : State n ε) (w : Waker), run (init n ε) acts = some s →
    (pendings s.log).head? = some w → since isNotify s.log = true → Event.closed ∉ s.log → s.spc.resting = true →
    w ∈ rxWoken s.log

/-- C59 is false: the waker of the first poll stays for good, so a later poll with
another waker is never woken. -/
theorem C59_false : ¬ LatestWaker 26 Nat := by
  intro h
  have := h [.rCall (.pollNext 1), .rStep, .rStep, .rStep, .rCall (.pollNext 2), .rStep, .sCall (.send 7), .sStep, .sStep]
    _ 2 rfl (by decide +kernel) (by decide +kernel) (by decide +kernel) (by decide +kernel)
  exact absurd this (by decide +kernel)

/-- Not even if only one poll was pending: the poll before it got pulses, but its
waker was stored. -/
theorem C59_false_single : ∃ (acts : List (Act 26 Nat)) (s : State 26 Nat), run (init 26 Nat) acts = some s ∧
    pendings s.log = [2] ∧ since isNotify s.log = true ∧ Event.closed ∉ s.log ∧ s.spc = .idle ∧ 2 ∉ rxWoken s.log :=
  ⟨[.rCall (.pollNext 1), .rStep, .rStep, .sCall (.send 1), .sStep, .rStep, .rCall (.pollNext 2), .rStep,
    .sCall (.send 7), .sStep, .sStep], _, rfl, by decide +kernel, by decide +kernel, by decide +kernel,
    by decide +kernel, by decide +kernel⟩

/-- What holds: some waker is woken after the last pending poll, and it is the one
waker that was ever stored. -/
theorem C59_partial {acts : List (Act n ε)} {s : State n ε} (h : run (init n ε) acts = some s)
    (hp : pendings s.log ≠ []) (hn : since isNotify s.log = true) (hc : Event.closed ∉ s.log)
    (hs : s.spc.resting = true) :
    since isWake s.log = true ∧ ∃ w, rxStored s.log = [w] ∧ ∀ u, u ∈ rxWoken s.log → u = w := by
  obtain ⟨-, -, -, b, -⟩ := reach h
  have hw : since isWake s.log = true := by
    rcases b.wake hn hp hc with q | q
    · exact q
    · cases hh : s.spc <;> simp_all [SPc.resting, sWaking]
  refine ⟨hw, ?_⟩
  have : ∀ l : List (Event ε), since isWake l = true → rxWoken l ≠ [] := by
    intro l
    induction l with
    | nil => simp [since]
    | cons e l ih => cases e <;> simp [since, rxWoken, isWake] at * <;> exact ih
  obtain ⟨u, us, hu⟩ := List.exists_cons_of_ne_nil (this _ hw)
  have h1 := b.woken u (by simp [hu])
  refine ⟨u, h1, fun v hv => ?_⟩
  have := b.woken v hv
  rw [h1] at this
  simpa using this.symm

/-- All polls of the schedule use the waker `w`. -/
def OneWaker (w : Waker) : List (Act n ε) → Prop
  | [] => True
  | .rCall (.pollNext u) :: as => u = w ∧ OneWaker w as
  | _ :: as => OneWaker w as

/-- The waker of the running poll. -/
private def rWk : RPc n → Option Waker
  | .pnRmw w | .pnWrite w | .pnRmw2 w => some w
  | _ => none

private theorem stored_one {w : Waker} {s s' : State n ε} {acts : List (Act n ε)} (h : run s acts = some s')
    (ho : OneWaker w acts) (h1 : ∀ u ∈ rxStored s.log, u = w) (h2 : ∀ u, rWk s.rpc = some u → u = w) :
    ∀ u ∈ rxStored s'.log, u = w := by
  induction acts generalizing s with
  | nil => simp [run] at h; subst h; exact h1
  | cons a as ih =>
    simp only [run] at h
    split at h
    · simp at h
    · rename_i t ht
      have ho' : OneWaker w as := by
        cases a with
        | rCall op => cases op <;> first | exact ho | exact ho.2
        | _ => exact ho
      refine ih h ho' ?_ ?_
      · clear ih h
        obtain ⟨st, data, rxw, txw, freed, spc, rpc, log⟩ := s
        cases a with
        | sCall op =>
          simp only [step] at ht
          split at ht <;> simp only [Option.some.injEq] at ht <;> subst ht
          · cases op <;> simp only [sCall, State.emit] <;> (try split) <;> simpa [rxStored] using h1
          · exact h1
        | rCall op =>
          simp only [step] at ht
          split at ht <;> simp only [Option.some.injEq] at ht <;> subst ht
          · cases op <;> exact h1
          · exact h1
        | sStep =>
          simp only [step, sStep, sendTail, satTail, errTail, State.emit, State.release] at ht
          (repeat' split at ht) <;> simp only [Option.some.injEq, reduceCtorEq] at ht <;> subst ht <;>
            simpa [rxStored] using h1
        | rStep =>
          simp only [step] at ht
          cases rpc <;>
          · simp only [rStep, RPc.resting, gotCount, dropTail, State.emit, State.release, Bool.false_eq_true, if_false, if_true] at ht
            (repeat' split at ht) <;> simp only [Option.some.injEq, reduceCtorEq] at ht <;> subst ht <;>
              simp [rxStored, rWk] at * <;> grind
      · clear ih h h1
        obtain ⟨st, data, rxw, txw, freed, spc, rpc, log⟩ := s
        cases a with
        | sCall op =>
          simp only [step] at ht
          split at ht <;> simp only [Option.some.injEq] at ht <;> subst ht
          · cases op <;> simp only [sCall, State.emit] <;> (try split) <;> exact h2
          · exact h2
        | rCall op =>
          simp only [step] at ht
          split at ht <;> simp only [Option.some.injEq] at ht <;> subst ht
          · cases op <;> simp [rCall, rWk, OneWaker] at * <;> grind
          · exact h2
        | sStep =>
          simp only [step, sStep, sendTail, satTail, errTail, State.emit, State.release] at ht
          (repeat' split at ht) <;> simp only [Option.some.injEq, reduceCtorEq] at ht <;> subst ht <;> exact h2
        | rStep =>
          simp only [step] at ht
          cases rpc <;>
          · simp only [rStep, RPc.resting, gotCount, dropTail, State.emit, State.release, Bool.false_eq_true, if_false, if_true] at ht
            (repeat' split at ht) <;> simp only [Option.some.injEq, reduceCtorEq] at ht <;> subst ht <;>
              simp [rWk] at * <;> grind

/-- C59 for tasks that always poll with the same waker. -/
theorem C59_same_waker_partial {acts : List (Act n ε)} {s : State n ε} {w : Waker} (h : run (init n ε) acts = some s)
    (ho : OneWaker w acts) (hp : pendings s.log ≠ []) (hn : since isNotify s.log = true)
    (hc : Event.closed ∉ s.log) (hs : s.spc.resting = true) : w ∈ rxWoken s.log := by
  obtain ⟨hw, u, hu, hall⟩ := C59_partial h hp hn hc hs
  have : ∀ l : List (Event ε), since isWake l = true → rxWoken l ≠ [] := by
    intro l
    induction l with
    | nil => simp [since]
    | cons e l ih => cases e <;> simp [since, rxWoken, isWake] at * <;> exact ih
  obtain ⟨v, vs, hv⟩ := List.exists_cons_of_ne_nil (this _ hw)
  have e1 := hall v (by simp [hv])
  have e2 := stored_one h ho (by simp [init, rxStored]) (by simp [init, rWk]) u (by simp [hu])
  simp [hv, e1, e2]

example : (run (init 26 Nat) (demo.take 7)).map (fun s => (pendings s.log, since isNotify s.log, rxWoken s.log)) =
    some ([1], true, [1]) := by decide +kernel
example : OneWaker 1 demo := by simp [demo, OneWaker]

end Verif.Pulse
