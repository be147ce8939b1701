import Verif.Fib.PulseLemmas
/-! # Schedules of fiber streams over the pulse channel -/
namespace Verif.Fib.PulseStream

open Verif.Spsc Verif.Pulse

variable {n : Nat} {ε : Type} {ov : Policy n ε}

/-- The channel invariants of a reachable channel. -/
theorem chan_reach {as : List (Pulse.Act n ε)} {c : Pulse.State n ε} (h : Pulse.run (Pulse.init n ε) as = some c) :
    Hist (OkCount n) c.log ∧ Hist OkErr c.log ∧ (Event.closed ∈ c.log ↔ has c.st (CLOSED n) = true) := by
  have hA := run_ind step_logA (.inl (init_inv n ε)) ⟨init_logN n ε, init_logA n ε⟩ h
  exact ⟨hA.2.1.hist, hA.2.2.hist, hA.2.1.closed⟩

theorem hist_at {ok : Event ε → List (Event ε) → Prop} {e : Event ε} {l₂ : List (Event ε)} : ∀ {l₁ : List (Event ε)}, Hist ok (l₁ ++ e :: l₂) → ok e l₂
  | [], h => h.1
  | _ :: l₁, h => hist_at (l₁ := l₁) h.2

/-- What the results of the channel say about closing. -/
structure Honest (log : List (Event ε)) : Prop where
  canceled : (∃ p, (p, Res.canceled) ∈ sends log) → Event.closed ∈ log
  check : lastCanceled log = true → Event.closed ∈ log

theorem honest_of_hist : ∀ {log : List (Event ε)}, Hist (OkCount n) log → Hist OkErr log → Honest log
  | [], _, _ => ⟨by simp [sends], by simp [lastCanceled]⟩
  | e :: p, h, g => by
    obtain ⟨h0, h1⟩ := h
    obtain ⟨g0, g1⟩ := g
    have ih := honest_of_hist h1 g1
    constructor
    · rintro ⟨q, hq⟩
      cases e <;> simp only [sends] at hq
      case send v r =>
        rcases List.mem_cons.1 hq with hq | hq
        · cases hq; exact List.mem_cons_of_mem _ h0.1
        · exact List.mem_cons_of_mem _ (ih.canceled ⟨q, hq⟩)
      all_goals exact List.mem_cons_of_mem _ (ih.canceled ⟨q, hq⟩)
    · intro hc
      cases e <;> simp only [lastCanceled] at hc
      case isCanceled => exact List.mem_cons_of_mem _ (g0.1 hc)
      all_goals exact List.mem_cons_of_mem _ (ih.check hc)

theorem quit_link {s : State n ε} (l : Linked ov s) (hi : s.ch.spc = .idle) (he : errs s.ch.log = [])
    (hf : Event.closed ∈ s.ch.log ∨ finish ov s.outs (sends s.ch.log) = some none) : Linked ov s.quit := by
  obtain ⟨l1, l2, l3, l4, l5, l6, l7, l8, l9, l10, l11, l12, l13⟩ := l
  rw [hi] at l1 l2
  exact ⟨l1, ⟨rfl, l2.2⟩, (by simp [State.quit]), (by simp [State.quit]), (by simp [State.quit]), (by simp [State.quit]), l7, (by simp [State.quit]),
    (by simp [State.quit]), fun _ _ => he, (by simp [State.quit]), fun _ => ⟨.inl rfl, hf⟩, (by simp [State.quit])⟩

theorem fail_link {s : State n ε} {e : ε} (l : Linked ov s) (hi : s.ch.spc = .idle) (he : errs s.ch.log = [])
    (hf : finish ov s.outs (sends s.ch.log) = some (some e)) : Linked ov (s.fail e) := by
  obtain ⟨l1, l2, l3, l4, l5, l6, l7, l8, l9, l10, l11, l12, l13⟩ := l
  rw [hi] at l1 l2
  exact ⟨l1, ⟨rfl, by simpa [State.fail, sCall, Pulse.State.emit] using l2.2⟩, (by simp [State.fail]), (by simp [State.fail]), (by simp [State.fail]),
    (by simp [State.fail]), l7, (by simp [State.fail]), (by simp [State.fail]), (by simp [State.fail]),
    fun _ => ⟨.inl rfl, e, by simp [State.fail, sCall, Pulse.State.emit, errs, he], hf⟩, (by simp [State.fail]), (by simp [State.fail])⟩

/-- Suspended again. -/
theorem yield_link {s : State n ε} (l : Linked ov s) (hi : s.ch.spc = .idle) (he : errs s.ch.log = [])
    (hy : headYield s.outs = true) : Linked ov { s with pc := .yielded } := by
  obtain ⟨l1, l2, l3, l4, l5, l6, l7, l8, l9, l10, l11, l12, l13⟩ := l
  refine ⟨l1, l2, fun _ => hi, (by simp), (by simp), fun _ o ho => ?_, l7, (by simp), (by simp), fun _ _ => he, (by simp), (by simp), (by simp)⟩
  cases hs : s.outs with
  | nil => simp [hs] at ho
  | cons a as =>
    simp only [hs] at ho l7 hy
    rcases List.mem_cons.1 ho with rfl | ho
    · cases o <;> simp [headYield] at hy; rfl
    · exact l7 o ho

theorem proceed_link {s : State n ε} (l : Linked ov s) (hn : Honest s.ch.log) (hr : s.ch.spc.resting = true) :
    Linked ov (proceed ov s) := by
  have l0 := l
  obtain ⟨l1, l2, l3, l4, l5, l6, l7, l8, l9, l10, l11, l12, l13⟩ := l
  cases hp : s.pc with
  | yielded => simp [proceed, hp]; exact l0
  | resume => simp [proceed, hp]; exact l0
  | done => simp [proceed, hp]; exact l0
  | check =>
    have hi : s.ch.spc = .idle := by
      rcases l4 hp with h | h
      · simp [h, SPc.resting] at hr
      · exact h
    have he := l10 (by simp [hp]) (by simp [hp])
    simp only [proceed, hp]
    split
    · rename_i hc
      exact quit_link l0 hi he (.inl (hn.check hc))
    · have hy := l6 (.inr (.inl hp))
      exact ⟨l1, l2, fun _ => hi, (by simp), (by simp), fun _ => hy, l7, (by simp), (by simp), fun _ _ => he, (by simp), (by simp), (by simp)⟩
  | send =>
    have he := l10 (by simp [hp]) (by simp [hp])
    have hh := l5 (.inl hp)
    have hy := l8 hp
    have hi : s.ch.spc = .idle ∧ Last s.outs s.ch.log := by
      rcases hh with ⟨v, h, -⟩ | ⟨h | h, h'⟩
      · cases hs : s.ch.spc <;> simp [hs, inProg] at h <;> simp [hs, SPc.resting] at hr
      · exact ⟨h, h'⟩
      · simp [h, SPc.resting] at hr
    obtain ⟨hi, p, l, hc, hv⟩ := hi
    simp only [proceed, hp]
    split
    · exact yield_link l0 hi he hy
    · rename_i hl
      exact quit_link l0 hi he (.inl (hn.canceled ⟨p, by rw [hc, hl]; exact List.mem_cons_self ..⟩))
    · rename_i hl
      split
      · exact yield_link l0 hi he hy
      · rename_i e hov
        refine fail_link l0 hi he ?_
        rw [hc, hl]
        cases ho : s.outs with
        | nil => simp [ho, headYield] at hy
        | cons o os =>
          rw [ho] at hv hy hov
          rcases o with (_ | v) | r
          · simp [headVal] at hv
          · simp [finish, hov]
          · simp [headYield] at hy
  | sendLast =>
    have he := l10 (by simp [hp]) (by simp [hp])
    have hh := l5 (.inr hp)
    have hy := l9 hp
    have hi : s.ch.spc = .idle ∧ Last s.outs s.ch.log := by
      rcases hh with ⟨v, h, -⟩ | ⟨h | h, h'⟩
      · cases hs : s.ch.spc <;> simp [hs, inProg] at h <;> simp [hs, SPc.resting] at hr
      · exact ⟨h, h'⟩
      · simp [h, SPc.resting] at hr
    obtain ⟨hi, p, l, hc, hv⟩ := hi
    have ho : ∃ v os, s.outs = .complete (.ok (some v)) :: os := by
      cases ho : s.outs with
      | nil => simp [ho, headVal] at hv
      | cons o os =>
        rw [ho] at hv hy
        rcases o with o | (e | (_ | v))
        · simp [headYield] at hy
        · simp [headVal] at hv
        · simp [headVal] at hv
        · exact ⟨v, os, rfl⟩
    obtain ⟨v, os, ho⟩ := ho
    simp only [proceed, hp]
    split
    · rename_i hl
      exact quit_link l0 hi he (.inr (by rw [ho, hc, hl]; rfl))
    · rename_i hl
      exact quit_link l0 hi he (.inl (hn.canceled ⟨p, by rw [hc, hl]; exact List.mem_cons_self ..⟩))
    · rename_i hl
      split
      · rename_i hov
        exact quit_link l0 hi he (.inr (by rw [ho] at hov; rw [ho, hc, hl]; simp [finish, hov]))
      · rename_i e hov
        exact fail_link l0 hi he (by rw [ho] at hov; rw [ho, hc, hl]; simp [finish, hov])
  | err =>
    have h11 := l11 hp
    have hg : s.ch.spc = .gone := by
      rcases h11.1 with h | h
      · cases hs : s.ch.spc <;> simp [hs, failing] at h <;> simp [hs, SPc.resting] at hr
      · exact h
    simp only [proceed, hp]
    exact ⟨l1, l2, (by simp), (by simp), (by simp), (by simp), l7, (by simp), (by simp), (by simp), (by simp), (by simp), fun _ => ⟨hg, .inr h11.2⟩⟩
  | leave =>
    have h12 := l12 hp
    have he := l10 (by simp [hp]) (by simp [hp])
    have hg : s.ch.spc = .gone := by
      rcases h12.1 with h | h
      · cases hs : s.ch.spc <;> simp [hs, quitting] at h <;> simp [hs, SPc.resting] at hr
      · exact h
    simp only [proceed, hp]
    exact ⟨l1, l2, (by simp), (by simp), (by simp), (by simp), l7, (by simp), (by simp), (by simp), (by simp), (by simp), fun _ => ⟨hg, .inl ⟨he, h12.2⟩⟩⟩

theorem receive_link {s : State n ε} (l : Linked ov s) (hp : s.pc = .resume) (out : Out n ε) : Linked ov (receive s out) := by
  obtain ⟨l1, l2, l3, l4, l5, l6, l7, l8, l9, l10, l11, l12, l13⟩ := l
  have he := l10 (by simp [hp]) (by simp [hp])
  have hi := l3 (.inr hp)
  have hy := l6 (.inr (.inr hp))
  rw [hi] at l1 l2
  have l1' : (sends s.ch.log).map (·.1) = offered s.outs := l1
  have sendCase : ∀ (p : Word n) (pc : Pc), (pc = .send ∧ out = .yielded (some p)) ∨ (pc = .sendLast ∧ out = .complete (.ok (some p))) →
      Linked ov ⟨Pulse.sCall s.ch (.send p), pc, out :: s.outs⟩ := by
    intro p pc hpc
    have e1 : offered (out :: s.outs) = p.toNat :: offered s.outs := by
      rcases hpc with ⟨-, rfl⟩ | ⟨-, rfl⟩ <;> rfl
    have e2 : headVal (out :: s.outs) = some p.toNat := by
      rcases hpc with ⟨-, rfl⟩ | ⟨-, rfl⟩ <;> rfl
    have np : pc = .send ∨ pc = .sendLast := hpc.imp (·.1) (·.1)
    have q : ((sCall s.ch (.send p)).spc = .sendRmw p ∧ (sCall s.ch (.send p)).log = s.ch.log) ∨
        ((sCall s.ch (.send p)).spc = .idle ∧ (sCall s.ch (.send p)).log = .send p.toNat .full :: s.ch.log) := by
      simp only [sCall]
      split
      · exact .inr ⟨hi, rfl⟩
      · exact .inl ⟨rfl, rfl⟩
    have np : pc = .send ∨ pc = .sendLast := hpc.imp (·.1) (·.1)
    have g1 : pc = .send → headYield (out :: s.outs) = true := by
      intro h; rcases hpc with ⟨h', rfl⟩ | ⟨h', rfl⟩
      · rfl
      · simp [h'] at h
    have g2 : pc = .sendLast → headYield (out :: s.outs) = false := by
      intro h; rcases hpc with ⟨h', rfl⟩ | ⟨h', rfl⟩
      · simp [h'] at h
      · rfl
    unfold Linked
    dsimp only
    rcases q with ⟨q1, q2⟩ | ⟨q1, q2⟩
    · rw [q1, q2]
      refine ⟨?_, ⟨rfl, l2.2⟩, ?_, ?_, fun _ => .inl ⟨_, rfl, e2⟩, ?_, hy, g1, g2, fun _ _ => he, ?_, ?_, ?_⟩
      · simp only [e1, inProg, ← l1', Option.toList]; rfl
      all_goals (intro h; rcases np with rfl | rfl <;> simp at h)
    · rw [q1, q2]
      refine ⟨?_, ⟨rfl, by simpa using l2.2⟩, ?_, ?_, fun _ => .inr ⟨.inl rfl, p.toNat, _, rfl, e2⟩, ?_, hy, g1, g2, fun _ _ => by simpa [errs] using he, ?_, ?_, ?_⟩
      · simp only [e1, inProg, ← l1', Option.toList]; rfl
      all_goals (intro h; rcases np with rfl | rfl <;> simp at h)
  rcases out with (_ | v) | (e | (_ | v))
  · simp only [receive]
    refine ⟨(by rw [hi]; exact l1), (by rw [hi]; exact l2), fun _ => hi, (by simp), (by simp), fun _ o ho => ?_, hy, (by simp),
      (by simp), fun _ _ => he, (by simp), (by simp), (by simp)⟩
    rcases List.mem_cons.1 ho with rfl | ho
    · rfl
    · exact hy o ho
  · exact sendCase v .send (.inl ⟨rfl, rfl⟩)
  · simp only [receive, State.fail]
    exact ⟨l1, ⟨rfl, by simpa [sCall, Pulse.State.emit] using l2.2⟩, (by simp), (by simp), (by simp), (by simp), hy,
      (by simp), (by simp), (by simp), fun _ => ⟨.inl rfl, e, by simp [sCall, Pulse.State.emit, errs, he], rfl⟩, (by simp), (by simp)⟩
  · simp only [receive, State.quit]
    exact ⟨l1, ⟨rfl, l2.2⟩, (by simp), (by simp), (by simp), (by simp), hy, (by simp), (by simp), fun _ _ => he,
      (by simp), fun _ => ⟨.inl rfl, .inr rfl⟩, (by simp)⟩
  · exact sendCase v .sendLast (.inr ⟨rfl, rfl⟩)

/-- Outside the calls that send, nothing is being sent. -/
theorem Link.notSending {s : State n ε} (l : Linked ov s) (h1 : s.pc ≠ .send) (h2 : s.pc ≠ .sendLast) : inProg s.ch.spc = none := by
  cases hs : inProg s.ch.spc with
  | none => rfl
  | some v =>
    exfalso
    cases hp : s.pc with
    | send => exact h1 hp
    | sendLast => exact h2 hp
    | yielded => simp [l.idle (.inl hp), inProg] at hs
    | resume => simp [l.idle (.inr hp), inProg] at hs
    | check => rcases l.check hp with h | h <;> simp [h, inProg] at hs
    | err => rcases (l.err hp).1 with h | h <;> cases hq : s.ch.spc <;> simp [hq, failing] at h <;> simp [hq, inProg] at hs
    | leave => rcases (l.leave hp).1 with h | h <;> cases hq : s.ch.spc <;> simp [hq, quitting] at h <;> simp [hq, inProg] at hs
    | done => simp [(l.done hp).1, inProg] at hs

theorem access_link {s : State n ε} {ch : Pulse.State n ε} (l : Linked ov s) (hc : Pulse.sStep s.ch = some ch)
    (hr : s.ch.spc.resting = false) : Linked ov { s with ch := ch } := by
  have l0 := l
  obtain ⟨l1, l2, l3, l4, l5, l6, l7, l8, l9, l10, l11, l12, l13⟩ := l
  obtain ⟨f1, f2, f3, f4, f5, f6, f7, f8, f9, f10⟩ := sStep_frame hc
  unfold Linked
  dsimp only
  have hsat := f4 l2.1
  cases hs : inProg s.ch.spc with
  | some p =>
    have hpc : s.pc = .send ∨ s.pc = .sendLast := by
      by_cases h1 : s.pc = .send
      · exact .inl h1
      · by_cases h2 : s.pc = .sendLast
        · exact .inr h2
        · rw [Link.notSending l0 h1 h2] at hs; cases hs
    obtain ⟨a1, a2, r, a3, a4⟩ := f6 p hs
    have hv : headVal s.outs = some p := by
      rcases l5 hpc with ⟨u, h1, h2⟩ | ⟨h | h, -⟩
      · rw [hs] at h1; cases h1; exact h2
      · simp [h, inProg] at hs
      · simp [h, inProg] at hs
    rw [hs] at l1
    refine ⟨?_, ⟨hsat.1, fun q => l2.2 (hsat.2.1 q)⟩, ?_, ?_, fun _ => .inr ⟨a2, p, _, by rw [a3, a4], hv⟩, ?_, l7, l8, l9, ?_, ?_, ?_, ?_⟩
    · rw [a1, a3, ← l1]; rfl
    · intro h; rcases hpc with hp | hp <;> rcases h with h | h <;> rw [hp] at h <;> cases h
    · intro h; rcases hpc with hp | hp <;> rw [hp] at h <;> cases h
    · intro h; rcases hpc with hp | hp <;> rcases h with h | h | h <;> rw [hp] at h <;> cases h
    · intro q1 q2; rw [f3]; exact l10 q1 q2
    · intro h; rcases hpc with hp | hp <;> rw [hp] at h <;> cases h
    · intro h; rcases hpc with hp | hp <;> rw [hp] at h <;> cases h
    · intro h; rcases hpc with hp | hp <;> rw [hp] at h <;> cases h
  | none =>
    obtain ⟨a1, a2, a3⟩ := f5 hs
    refine ⟨?_, ⟨hsat.1, fun q => l2.2 (hsat.2.1 q)⟩, ?_, ?_, ?_, l6, l7, l8, l9, ?_, ?_, ?_, ?_⟩
    · rw [a1, a2, ← l1, hs]
    · intro h; have := l3 h; simp [this, SPc.resting] at hr
    · intro h
      rcases l4 h with h' | h'
      · exact .inr (f10 h').1
      · simp [h', SPc.resting] at hr
    · intro h
      rcases l5 h with ⟨u, h1, -⟩ | ⟨h1 | h1, p, l, q1, q2⟩
      · rw [hs] at h1; cases h1
      · simp [h1, SPc.resting] at hr
      · exact .inr ⟨.inl (f9 h1), p, l, by rw [a2, a3]; exact q1, q2⟩
    · intro q1 q2; rw [f3]; exact l10 q1 q2
    · intro h
      rw [f3, a2]
      refine ⟨?_, (l11 h).2⟩
      rcases (l11 h).1 with h' | h'
      · exact f8 h'
      · simp [h', SPc.resting] at hr
    · intro h
      rw [f2, a2]
      refine ⟨?_, (l12 h).2⟩
      rcases (l12 h).1 with h' | h'
      · exact f7 h'
      · simp [h', SPc.resting] at hr
    · intro h; simp [(l13 h).1, SPc.resting] at hr

theorem step_link {s s' : State n ε} {a : Act n ε} (l : Linked ov s) (hn : Honest s.ch.log)
    (h : step ov s a = some s') : Linked ov s' := by
  cases a with
  | wake =>
    simp only [step] at h
    split at h <;> simp at h <;> subst h
    · rename_i hp
      obtain ⟨l1, l2, l3, l4, l5, l6, l7, l8, l9, l10, l11, l12, l13⟩ := l
      have hi := l3 (.inl hp)
      have he := l10 (by simp [hp]) (by simp [hp])
      have hy := l6 (.inl hp)
      rw [hi] at l1 l2
      exact ⟨l1, ⟨rfl, l2.2⟩, (by simp), fun _ => .inl rfl, (by simp), fun _ => hy, l7, (by simp), (by simp),
        fun _ _ => he, (by simp), (by simp), (by simp)⟩
    · exact l
  | fib out =>
    simp only [step] at h
    split at h <;> simp at h <;> subst h
    · exact receive_link l (by assumption) out
    · exact l
  | step =>
    simp only [step] at h
    split at h
    case h_6 => simp at h; subst h; exact l
    case h_7 => simp at h; subst h; exact l
    case h_8 => simp at h; subst h; exact l
    all_goals
      split at h
      · rename_i hr
        simp at h; subst h; exact proceed_link l hn hr
      · rename_i hr
        split at h
        · simp at h
        · rename_i ch hc
          simp at h; subst h
          exact access_link l hc (by simpa using hr)
  | call op =>
    simp only [step] at h
    split at h <;> simp at h <;> subst h
    · have e : (rCall s.ch op).spc = s.ch.spc ∧ (rCall s.ch op).log = s.ch.log := by cases op <;> simp [rCall]
      unfold Linked
      dsimp only
      rw [e.1, e.2]; exact l
    · exact l
  | rstep =>
    simp only [step] at h
    split at h
    · simp at h
    · rename_i ch hc
      simp at h; subst h
      obtain ⟨f1, f2, f3, f4, f5, f6, f7⟩ := rStep_frame hc
      obtain ⟨l1, l2, l3, l4, l5, l6, l7, l8, l9, l10, l11, l12, l13⟩ := l
      unfold Linked
      constructor <;> simp only [f1, f3, f5, f6, Last] <;> try assumption
      · exact ⟨l2.1, fun q => l2.2 (f4.1 q)⟩
      · intro h
        obtain ⟨q1, q2⟩ := l12 h
        exact ⟨q1, q2.imp f2 id⟩
      · intro h
        obtain ⟨q1, q2⟩ := l13 h
        exact ⟨q1, q2.imp (fun q => ⟨q.1, q.2.imp f2 id⟩) id⟩

/-! ### The channel only sees legal calls -/

theorem step_chan {s s' : State n ε} {a : Act n ε} (l : Linked ov s) (h : step ov s a = some s') :
    s'.ch = s.ch ∨ ∃ a', Pulse.step s.ch a' = some s'.ch := by
  have hidle : (s.pc = .yielded ∨ s.pc = .resume) → s.ch.spc = .idle := l.idle
  cases a with
  | wake =>
    simp only [step] at h
    split at h <;> simp at h <;> subst h
    · rename_i hp
      exact .inr ⟨.sCall .isCanceled, by simp [Pulse.step, hidle (.inl hp), SPc.isIdle]⟩
    · exact .inl rfl
  | fib out =>
    simp only [step] at h
    split at h <;> simp at h <;> subst h
    · rename_i hp
      have hi := hidle (.inr hp)
      rcases out with (_ | v) | (e | (_ | v)) <;> simp only [receive, State.quit, State.fail]
      · exact .inl trivial
      · exact .inr ⟨.sCall (.send v), by simp [Pulse.step, hi, SPc.isIdle]⟩
      · exact .inr ⟨.sCall (.sendErr e), by simp [Pulse.step, hi, SPc.isIdle]⟩
      · exact .inr ⟨.sCall .drop, by simp [Pulse.step, hi, SPc.isIdle]⟩
      · exact .inr ⟨.sCall (.send v), by simp [Pulse.step, hi, SPc.isIdle]⟩
    · exact .inl rfl
  | step =>
    have main : s.ch.spc.resting = true → (proceed ov s).ch = s.ch ∨ ∃ a', Pulse.step s.ch a' = some (proceed ov s).ch := by
      intro hr
      have hcases : s.ch.spc = .idle ∨ s.ch.spc = .gone := by
        cases hs : s.ch.spc <;> simp [hs, SPc.resting] at hr <;> simp
      have hq : s.pc = .check ∨ s.pc = .send ∨ s.pc = .sendLast → s.ch.spc = .idle := by
        intro hp
        rcases hcases with h' | h'
        · exact h'
        · exfalso
          rcases hp with hp | hp | hp
          · rcases l.check hp with q | q <;> simp [h'] at q
          · rcases l.send (.inl hp) with ⟨v, q, -⟩ | ⟨q | q, -⟩ <;> simp [h', inProg] at q
          · rcases l.send (.inr hp) with ⟨v, q, -⟩ | ⟨q | q, -⟩ <;> simp [h', inProg] at q
      cases hp : s.pc <;> simp only [proceed, hp]
      case check =>
        have hi := hq (.inl hp)
        split
        · exact .inr ⟨.sCall .drop, by simp [Pulse.step, hi, SPc.isIdle, State.quit]⟩
        · exact .inl rfl
      case send =>
        have hi := hq (.inr (.inl hp))
        repeat' split
        all_goals first
          | exact .inl rfl
          | (refine .inr ⟨.sCall .drop, ?_⟩; simp [Pulse.step, hi, SPc.isIdle, State.quit]; done)
          | (rename_i e _; exact .inr ⟨.sCall (.sendErr e), by simp [Pulse.step, hi, SPc.isIdle, State.fail]⟩)
      case sendLast =>
        have hi := hq (.inr (.inr hp))
        repeat' split
        all_goals first
          | exact .inl rfl
          | (refine .inr ⟨.sCall .drop, ?_⟩; simp [Pulse.step, hi, SPc.isIdle, State.quit]; done)
          | (rename_i e _; exact .inr ⟨.sCall (.sendErr e), by simp [Pulse.step, hi, SPc.isIdle, State.fail]⟩)
      all_goals exact .inl trivial
    simp only [step] at h
    split at h
    case h_6 => simp at h; subst h; exact .inl rfl
    case h_7 => simp at h; subst h; exact .inl rfl
    case h_8 => simp at h; subst h; exact .inl rfl
    all_goals
      split at h
      · rename_i hr
        simp at h; subst h; exact main hr
      · split at h
        · simp at h
        · rename_i ch hc
          simp at h; subst h
          exact .inr ⟨.sStep, hc⟩
  | call op =>
    simp only [step] at h
    split at h <;> simp at h <;> subst h
    · rename_i hi
      exact .inr ⟨.rCall op, by simp [Pulse.step, hi]⟩
    · exact .inl rfl
  | rstep =>
    simp only [step] at h
    split at h
    · simp at h
    · rename_i ch hc
      simp at h; subst h
      exact .inr ⟨.rStep, hc⟩

theorem chan_run_append (c : Pulse.State n ε) (a b : List (Pulse.Act n ε)) :
    Pulse.run c (a ++ b) = (Pulse.run c a).bind fun t => Pulse.run t b := by
  induction a generalizing c with
  | nil => rfl
  | cons x xs ih =>
    simp only [List.cons_append, Pulse.run]
    cases Pulse.step c x with
    | none => rfl
    | some t => exact ih t

theorem chan_snoc {P : Pulse.State n ε → Prop} {acts : List (Pulse.Act n ε)} {c c1 c2 : Pulse.State n ε} {a : Pulse.Act n ε}
    (al : Pulse.Always P c acts) (h : Pulse.run c acts = some c1) (h' : Pulse.step c1 a = some c2) (p : P c2) :
    Pulse.Always P c (acts ++ [a]) ∧ Pulse.run c (acts ++ [a]) = some c2 := by
  refine ⟨?_, by rw [chan_run_append, h]; simp [Pulse.run, h']⟩
  induction acts generalizing c with
  | nil =>
    simp [Pulse.run] at h; subst h
    refine ⟨al, fun s hs => ?_⟩
    rw [h'] at hs; cases hs; exact p
  | cons b bs ih =>
    simp only [Pulse.run] at h
    split at h
    · simp at h
    · rename_i c3 h3
      refine ⟨al.1, fun s hs => ?_⟩
      rw [h3] at hs; cases hs; exact ih (al.2 c3 h3) h

theorem honest {as : List (Pulse.Act n ε)} {c : Pulse.State n ε} (h : Pulse.run (Pulse.init n ε) as = some c) : Honest c.log :=
  honest_of_hist (n := n) (chan_reach h).1 (chan_reach h).2.1

/-- A reachable state is linked, and its channel is reachable. -/
theorem reach_ind {acts : List (Act n ε)} {s s' : State n ε} {as : List (Pulse.Act n ε)} (lk : Linked ov s)
    (a2 : Pulse.run (Pulse.init n ε) as = some s.ch) (h : run ov s acts = some s') :
    Linked ov s' ∧ ∃ as', Pulse.run (Pulse.init n ε) as' = some s'.ch := by
  induction acts generalizing s as with
  | nil => simp [run] at h; subst h; exact ⟨lk, as, a2⟩
  | cons a rest ih =>
    simp only [run] at h
    split at h
    · simp at h
    · rename_i t ht
      have lt := step_link lk (honest a2) ht
      rcases step_chan lk ht with e | ⟨a', e⟩
      · exact ih lt (as := as) (by rw [e]; exact a2) h
      · exact ih lt (as := as ++ [a']) (by rw [chan_run_append, a2]; simp [Pulse.run, e]) h

theorem reach {acts : List (Act n ε)} {s : State n ε} (h : run ov (init n ε) acts = some s) :
    Linked ov s ∧ ∃ as, Pulse.run (Pulse.init n ε) as = some s.ch :=
  reach_ind (init_link ov) (as := []) rfl h

theorem Link.errs_eq {s : State n ε} {e : ε} {es : List ε} (l : Linked ov s) (h : errs s.ch.log = e :: es) :
    finish ov s.outs (sends s.ch.log) = some (some e) ∧ es = [] := by
  by_cases h1 : s.pc = .err
  · obtain ⟨-, x, q1, q2⟩ := l.err h1
    rw [h] at q1; cases q1; exact ⟨q2, rfl⟩
  · by_cases h2 : s.pc = .done
    · rcases (l.done h2).2 with ⟨q, -⟩ | ⟨x, q1, q2⟩
      · rw [h] at q; cases q
      · rw [h] at q1; cases q1; exact ⟨q2, rfl⟩
    · have := l.noErr h1 h2; rw [h] at this; cases this

/-! ### Closing -/

/-- Closed while suspended: the generator will leave without resuming the fiber. -/
structure Shut (outs : List (Out n ε)) (cs : List (Nat × Res)) (s : State n ε) : Prop where
  outs : s.outs = outs
  sends : sends s.ch.log = cs
  closed : Event.closed ∈ s.ch.log
  pc : s.pc = .yielded ∨ (s.pc = .check ∧ (s.ch.spc = .idle → lastCanceled s.ch.log = true)) ∨ s.pc = .leave ∨ s.pc = .done

theorem step_shut {s s' : State n ε} {a : Act n ε} {outs : List (Out n ε)} {cs : List (Nat × Res)} (l : Linked ov s)
    {as : List (Pulse.Act n ε)} (hr : Pulse.run (Pulse.init n ε) as = some s.ch) (sh : Shut outs cs s)
    (h : step ov s a = some s') : Shut outs cs s' := by
  obtain ⟨o1, o4, o2, o3⟩ := sh
  cases a with
  | wake =>
    simp only [step] at h
    split at h <;> simp at h <;> subst h
    · exact ⟨o1, o4, o2, .inr (.inl ⟨rfl, by simp [sCall]⟩)⟩
    · exact ⟨o1, o4, o2, o3⟩
  | fib out =>
    simp only [step] at h
    split at h <;> simp at h <;> subst h
    · rename_i hp
      simp [hp] at o3
    · exact ⟨o1, o4, o2, o3⟩
  | call op =>
    simp only [step] at h
    split at h <;> simp at h <;> subst h
    · have e : (rCall s.ch op).spc = s.ch.spc ∧ (rCall s.ch op).log = s.ch.log := by cases op <;> simp [rCall]
      exact ⟨o1, by simpa [e.2] using o4, by simpa [e.2] using o2, by simpa [e.1, e.2] using o3⟩
    · exact ⟨o1, o4, o2, o3⟩
  | rstep =>
    simp only [step] at h
    split at h
    · simp at h
    · rename_i ch hc
      simp at h; subst h
      obtain ⟨f1, f2, f3, f4, f5, f6, f7⟩ := rStep_frame hc
      exact ⟨o1, by simpa [f5] using o4, f2 o2, by simpa [f1, f7] using o3⟩
  | step =>
    have hloc : s.ch.spc.resting = true → Shut outs cs (proceed ov s) := by
      intro hrest
      rcases o3 with hp | ⟨hp, hq⟩ | hp | hp
      · simp only [proceed, hp]; exact ⟨o1, o4, o2, .inl hp⟩
      · have hi : s.ch.spc = .idle := by
          rcases l.check hp with h' | h'
          · simp [h', SPc.resting] at hrest
          · exact h'
        simp only [proceed, hp, hq hi, if_true]
        exact ⟨o1, o4, by simpa [State.quit, sCall] using o2, .inr (.inr (.inl rfl))⟩
      · simp only [proceed, hp]; exact ⟨o1, o4, o2, .inr (.inr (.inr rfl))⟩
      · simp only [proceed, hp]; exact ⟨o1, o4, o2, .inr (.inr (.inr hp))⟩
    have ns : inProg s.ch.spc = none := by
      refine Link.notSending l ?_ ?_ <;> intro hp <;> simp [hp] at o3
    have hacc : ∀ ch, Pulse.sStep s.ch = some ch → s.ch.spc.resting = false → Shut outs cs { s with ch := ch } := by
      intro ch hc hrest
      obtain ⟨f1, f2, f3, f4, f5, f6, f7, f8, f9, f10⟩ := sStep_frame hc
      refine ⟨o1, (f5 ns).2.1.trans o4, by simpa [f2] using o2, ?_⟩
      rcases o3 with hp | ⟨hp, hq⟩ | hp | hp
      · exact .inl hp
      · refine .inr (.inl ⟨hp, fun _ => ?_⟩)
        have hi : s.ch.spc = .icLoad := by
          rcases l.check hp with h' | h'
          · exact h'
          · simp [h', SPc.resting] at hrest
        rw [(f10 hi).2]
        simpa [lastCanceled] using (chan_reach hr).2.2.1 o2
      · exact .inr (.inr (.inl hp))
      · exact .inr (.inr (.inr hp))
    simp only [step] at h
    split at h
    case h_6 => simp at h; subst h; exact ⟨o1, o4, o2, o3⟩
    case h_7 => simp at h; subst h; exact ⟨o1, o4, o2, o3⟩
    case h_8 => simp at h; subst h; exact ⟨o1, o4, o2, o3⟩
    all_goals
      split at h
      · rename_i hr
        simp at h; subst h; exact hloc hr
      · rename_i hr
        split at h
        · simp at h
        · rename_i ch hc
          simp at h; subst h
          exact hacc ch hc (by simpa using hr)

theorem run_shut {outs : List (Out n ε)} {cs : List (Nat × Res)} {acts : List (Act n ε)} {s s' : State n ε} (l : Linked ov s)
    {as : List (Pulse.Act n ε)} (hr : Pulse.run (Pulse.init n ε) as = some s.ch) (sh : Shut outs cs s)
    (h : run ov s acts = some s') : Shut outs cs s' := by
  induction acts generalizing s as with
  | nil => simp [run] at h; subst h; exact sh
  | cons a rest ih =>
    simp only [run] at h
    split at h
    · simp at h
    · rename_i t ht
      have lt := step_link l (honest hr) ht
      have st := step_shut l hr sh ht
      rcases step_chan l ht with e | ⟨a', e⟩
      · exact ih lt (as := as) (by rw [e]; exact hr) st h
      · exact ih lt (as := as ++ [a']) (by rw [chan_run_append, hr]; simp [Pulse.run, e]) st h

/-! ### Undefined behaviour -/

theorem run_defined {acts : List (Act n ε)} {s : State n ε} (l : Linked ov s)
    {as : List (Pulse.Act n ε)} (a1 : Pulse.Always Apart (Pulse.init n ε) as) (a2 : Pulse.run (Pulse.init n ε) as = some s.ch)
    (al : Always ov (fun t => Apart t.ch) s acts) : ∃ s', run ov s acts = some s' := by
  induction acts generalizing s as with
  | nil => exact ⟨s, rfl⟩
  | cons a rest ih =>
    obtain ⟨c, q, inv⟩ := run_inv (init_inv n ε) a1
    rw [a2] at q; cases q
    have hd : ∃ t, step ov s a = some t := by
      have prog := step_inv inv al.1
      cases a with
      | wake => simp only [step]; split <;> exact ⟨_, rfl⟩
      | fib out => simp only [step]; split <;> exact ⟨_, rfl⟩
      | call op => simp only [step]; split <;> exact ⟨_, rfl⟩
      | rstep =>
        obtain ⟨c, hc, -⟩ := prog .rStep
        simp only [Pulse.step] at hc
        simp only [step, hc]; exact ⟨_, rfl⟩
      | step =>
        obtain ⟨c, hc, -⟩ := prog .sStep
        simp only [Pulse.step] at hc
        simp only [step, hc]
        split <;> first | exact ⟨_, rfl⟩ | (split <;> exact ⟨_, rfl⟩)
    obtain ⟨t, ht⟩ := hd
    have lt := step_link l (honest a2) ht
    have alt := al.2 t ht
    have pt : Apart t.ch := by cases rest <;> first | exact alt | exact alt.1
    simp only [run, ht]
    rcases step_chan l ht with e | ⟨a', e⟩
    · exact ih lt a1 (by rw [e]; exact a2) alt
    · obtain ⟨q1, q2⟩ := chan_snoc a1 a2 e pt
      exact ih lt q1 q2 alt

end Verif.Fib.PulseStream
